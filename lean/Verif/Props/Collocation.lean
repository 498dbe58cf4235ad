import Verif.Lemmas.Collocation

/-!
# Properties C21 - C28: Q-generators and collocation
-/

namespace QMat

open Polynomial Spec NodesGenerator Matrix

/-! ## C21 -/

theorem qgenT_mul {M : ℕ} (Q : Matrix (Fin M) (Fin M) ℝ) (i j : Fin M) :
    (qgenT M * Q) i j = Q i j - if h : 0 < (i : ℕ) then Q ⟨i - 1, by omega⟩ j else 0 := by
  rw [Matrix.mul_apply]
  have hs : ∀ k : Fin M, qgenT M i k * Q k j = (if k = i then Q i j else 0) -
      if h : 0 < (i : ℕ) then (if k = ⟨i - 1, by omega⟩ then Q ⟨i - 1, by omega⟩ j else 0) else 0 := by
    intro k
    unfold qgenT
    simp only [of_apply]
    by_cases h1 : i = k
    · subst h1
      by_cases h2 : 0 < (i : ℕ)
      · simp [h2, Fin.ext_iff, show (i : ℕ) ≠ i - 1 by omega]
      · simp [h2]
    · by_cases h2 : (i : ℕ) = k + 1
      · have h3 : 0 < (i : ℕ) := by omega
        have h4 : k = ⟨i - 1, by omega⟩ := by ext; simp; omega
        rw [dif_pos h3, if_neg h1, if_pos h2, if_neg (Ne.symm h1), if_pos h4, ← h4]
        ring
      · rw [if_neg h1, if_neg h2, if_neg (Ne.symm h1)]
        by_cases h3 : 0 < (i : ℕ)
        · rw [dif_pos h3, if_neg]
          · simp
          · intro h; apply h2; rw [h]; simp; omega
        · rw [dif_neg h3]; simp
  rw [Finset.sum_congr rfl fun k _ => hs k, Finset.sum_sub_distrib]
  congr 1
  · simp
  · by_cases h : 0 < (i : ℕ)
    · simp [h]
    · simp [h]

/-- C21: `S` keeps the first row of `Q` and takes differences of consecutive rows. -/
theorem C21_S_rows {M : ℕ} (Q : Matrix (Fin M) (Fin M) ℝ) (i j : Fin M) :
    (∀ _ : (i : ℕ) = 0, qgenS Q i j = Q i j) ∧
    (∀ h : 0 < (i : ℕ), qgenS Q i j = Q i j - Q ⟨i - 1, by omega⟩ j) := by
  unfold qgenS
  rw [qgenT_mul]
  constructor
  · intro h; rw [dif_neg (by omega), sub_zero]
  · intro h; rw [dif_pos h]

theorem qgenT_mul_Tinv (M : ℕ) : qgenT M * qgenTinv M = 1 := by
  ext i j
  rw [qgenT_mul]
  unfold qgenTinv
  simp only [of_apply, Matrix.one_apply, Fin.le_def, Fin.ext_iff]
  split_ifs <;> first | omega | norm_num

/-- C21: `T` and `Tinv` are inverse to each other, and `Tinv * S = Q`. -/
theorem C21_T_Tinv (M : ℕ) :
    qgenT M * qgenTinv M = 1 ∧ qgenTinv M * qgenT M = 1 ∧
    ∀ Q : Matrix (Fin M) (Fin M) ℝ, qgenTinv M * qgenS Q = Q := by
  have h := qgenT_mul_Tinv M
  have h' := mul_eq_one_comm.mp h
  refine ⟨h, h', fun Q => ?_⟩
  rw [qgenS, ← Matrix.mul_assoc, h', Matrix.one_mul]

/-- Instance: three nodes. -/
example (Q : Matrix (Fin 3) (Fin 3) ℝ) : qgenTinv 3 * qgenS Q = Q := (C21_T_Tinv 3).2.2 Q

/-- C21: rows of `Q` are the cumulative sums of the rows of `S`. -/
theorem C21_Q_cumulative {M : ℕ} (Q : Matrix (Fin M) (Fin M) ℝ) (i j : Fin M) :
    Q i j = ∑ k ∈ Finset.univ.filter (· ≤ i), qgenS Q k j := by
  conv_lhs => rw [← (C21_T_Tinv M).2.2 Q]
  rw [Matrix.mul_apply, Finset.sum_filter]
  refine Finset.sum_congr rfl fun k _ => ?_
  simp [qgenTinv]

example : qgenS !![(1:ℝ), 2; 4, 8] 1 1 = 8 - 2 := by
  rw [(C21_S_rows !![(1:ℝ), 2; 4, 8] 1 1).2 (by decide)]
  simp

/-! ## C22 - C25 -/

/-- C22: on every documented configuration with `tLeft < tRight` the constructor succeeds, and `Q`,
`weights` and `S` integrate every polynomial of degree `< M` exactly from its nodal values: from
`tLeft` to each node, over the whole interval, between consecutive nodes. -/
theorem C22_collocation_exact {M : ℕ} {nt qt : String} (hnt : nt ∈ NODE_TYPES)
    (hqt : qt ∈ QUAD_TYPES) (hn : ValidSize qt M) {a b : ℝ} (hab : a < b) :
    ∃ c S, Collocation.new M nt qt a b = .ok c ∧ c.S = .ok S ∧ ∀ p : ℝ[X], p.degree < M →
      (∀ i, ∑ j, c.Q i j * p.eval (c.nodes j) = ∫ t in a..c.nodes i, p.eval t) ∧
      (∑ j, c.weights j * p.eval (c.nodes j) = ∫ t in a..b, p.eval t) ∧
      (∀ i, ∑ j, S i j * p.eval (c.nodes j) =
        ∫ t in (if h : 0 < (i : ℕ) then c.nodes ⟨i - 1, by omega⟩ else a)..c.nodes i, p.eval t) := by
  obtain ⟨c, hc⟩ := collocation_new_ok hnt hqt hn a b
  obtain ⟨x, hM, h⟩ := collocation_spec hc
  obtain ⟨S, hS, hSex⟩ := h.S_exact hab
  refine ⟨c, S, hc, hS, fun p hp => ⟨h.Q_exact hab p hp, h.weights_exact hab p hp, fun i => ?_⟩⟩
  have := hSex p hp i
  by_cases hi : 0 < (i : ℕ)
  · rw [dif_pos hi]
    rw [if_neg (by omega)] at this
    exact this
  · rw [dif_neg hi]
    rw [if_pos (by omega)] at this
    exact this

/-- Instance: four Chebyshev nodes on `[1, 3]` integrate `x ^ 3`. -/
example : ∃ c : Collocation 4, Collocation.new 4 "CHEBY-2" "RADAU-LEFT" 1 3 = .ok c ∧
    ∑ j, c.weights j * (X ^ 3 : ℝ[X]).eval (c.nodes j) = ∫ t in (1:ℝ)..3, (X ^ 3 : ℝ[X]).eval t := by
  obtain ⟨c, S, hc, -, h⟩ := C22_collocation_exact (M := 4) (nt := "CHEBY-2") (qt := "RADAU-LEFT") (by decide)
    (by decide) ⟨by norm_num, fun _ => by norm_num⟩ (a := 1) (b := 3) (by norm_num)
  exact ⟨c, hc, (h (X ^ 3) (by rw [degree_X_pow]; norm_num)).2.1⟩

/-- C23: row sums of `Q`, `weights`, `S`. -/
theorem C23_collocation_row_sums {M : ℕ} {nt qt : String} {a b : ℝ} (hab : a < b)
    (c : Collocation M) (hc : Collocation.new M nt qt a b = .ok c) :
    (∀ i, ∑ j, c.Q i j = c.nodes i - a) ∧ ∑ j, c.weights j = b - a ∧
    ∃ S, c.S = .ok S ∧ (∀ i : Fin M, (i : ℕ) = 0 → ∑ j, S i j = c.nodes i - a) ∧
      ∀ i : Fin M, ∀ h : 0 < (i : ℕ), ∑ j, S i j = c.nodes i - c.nodes ⟨i - 1, by omega⟩ := by
  obtain ⟨x, hM, h⟩ := collocation_spec hc
  obtain ⟨S, hS, hSex⟩ := h.S_exact hab
  have h1 : (1 : ℝ[X]).degree < M := by rw [degree_one]; exact_mod_cast hM
  have hv : vals 1 c.nodes = fun _ => 1 := by funext i; simp [vals]
  refine ⟨fun i => ?_, ?_, S, hS, fun i hi => ?_, fun i hi => ?_⟩
  · have := h.Q_exact hab 1 h1 i
    rw [hv, polyInt_one] at this
    change ∑ j, c.Q i j * 1 = _ at this
    simpa using this
  · simpa [QuadExact, polyInt_one] using h.weights_exact hab 1 h1
  · have := hSex 1 h1 i
    rw [hv, polyInt_one, if_pos hi] at this
    change ∑ j, S i j * 1 = _ at this
    simpa using this
  · have := hSex 1 h1 i
    rw [hv, polyInt_one, if_neg (by omega)] at this
    change ∑ j, S i j * 1 = _ at this
    simpa using this

/-- C24: the nodes are strictly increasing and inside the interval, and the end points the quadrature
type asks for are nodes exactly (for a single node: unless the interval is so short that `tLeft` is
`np.allclose` to `tRight`). -/
theorem C24_collocation_nodes {M : ℕ} {nt qt : String} {a b : ℝ} (hab : a < b)
    (c : Collocation M) (hc : Collocation.new M nt qt a b = .ok c) :
    StrictMono c.nodes ∧ (∀ i, a ≤ c.nodes i ∧ c.nodes i ≤ b) ∧
    (qt = "RADAU-LEFT" ∨ qt = "LOBATTO" → ∃ i, c.nodes i = a) ∧
    (qt = "RADAU-RIGHT" ∨ qt = "LOBATTO" → 2 ≤ M ∨ 1 / 10 ^ 8 + 1 / 10 ^ 5 * |b| < b - a →
      ∃ i, c.nodes i = b) := by
  obtain ⟨x, hM, h⟩ := collocation_spec hc
  obtain ⟨hs, hr, hl, hrr⟩ := h.base
  obtain ⟨h1, h2⟩ := h.snapped hab
  refine ⟨h1, h2, fun hq => ⟨⟨0, hM⟩, ?_⟩, fun hq hM1 => ⟨⟨M - 1, by omega⟩, ?_⟩⟩
  · have hM2 : 2 ≤ M := (validSize_of_getNodes h.getNodes).2 (hq.symm)
    have hx0 := h.first hq
    rw [h.nodes, snapAt_of_ne _ _ (by simp [Fin.ext_iff]; omega), snapAt_self]
    · simp [scaleNodes, hx0]
    · simp [scaleNodes, hx0]
  · have hx1 := h.last hq
    have hb : scaleNodes a b x ⟨M - 1, by omega⟩ = b := by simp [scaleNodes, hx1]
    rw [h.nodes]
    have e : snapAt a ⟨0, hM⟩ (scaleNodes a b x) ⟨M - 1, by omega⟩ = b := by
      rcases snapAt_apply a ⟨0, hM⟩ (scaleNodes a b x) ⟨M - 1, by omega⟩ with e | ⟨he, hcl, -⟩
      · rw [e, hb]
      · exfalso
        have hM' : M - 1 = 0 := by simpa [Fin.ext_iff] using he
        rcases hM1 with hM1 | hM1
        · omega
        · rw [← he, hb] at hcl
          unfold npIsClose at hcl
          rw [abs_sub_comm, abs_of_pos (by linarith)] at hcl
          linarith
    rw [snapAt_self e, e]

/-- Instance: four nodes on `[1, 3]`, the first of which is `1`. -/
example : ∃ c : Collocation 4, Collocation.new 4 "CHEBY-2" "RADAU-LEFT" 1 3 = .ok c ∧ StrictMono c.nodes ∧
    ∃ i, c.nodes i = 1 := by
  obtain ⟨c, hc⟩ := collocation_new_ok (M := 4) (nt := "CHEBY-2") (qt := "RADAU-LEFT") (by decide)
    (by decide) ⟨by norm_num, fun _ => by norm_num⟩ 1 3
  have h := C24_collocation_nodes (by norm_num) c hc
  exact ⟨c, hc, h.1, h.2.2.1 (Or.inl rfl)⟩

/-- C24 (converse): if the end nodes asked for are the only ones the closeness tests accept,
the boundary of the interval is a node exactly when asked for.  Missing: without these hypotheses the
claim is false, see `C24_snapping_fails`. -/
theorem C24_boundary_nodes_unmoved {M : ℕ} {nt qt : String} {a b : ℝ} (hab : a < b)
    (c : Collocation M) (hc : Collocation.new M nt qt a b = .ok c)
    (x : Fin M → ℝ) (hx : getNodes ⟨nt, qt⟩ M = .ok x)
    (hun : ∀ i, c.nodes i = a + (b - a) * ((x i + 1) / 2)) :
    ((∃ i, c.nodes i = a) ↔ qt = "RADAU-LEFT" ∨ qt = "LOBATTO") ∧
    ((∃ i, c.nodes i = b) ↔ qt = "RADAU-RIGHT" ∨ qt = "LOBATTO") := by
  obtain ⟨x', hM, h⟩ := collocation_spec hc
  obtain ⟨hs, hr, hl, hrr⟩ := h.base
  have := h.getNodes
  rw [hx] at this
  cases this
  have hba : b - a ≠ 0 := by linarith
  rw [← hl, ← hrr]
  constructor
  · refine exists_congr fun i => ?_
    rw [hun i, add_eq_left, mul_eq_zero, or_iff_right hba]
    constructor <;> intro h <;> linarith
  · refine exists_congr fun i => ?_
    rw [hun i]
    constructor
    · intro h
      have : (b - a) * ((x i + 1) / 2) = (b - a) * 1 := by linarith
      have := mul_left_cancel₀ hba this
      linarith
    · intro h; rw [h]; ring

/-- C24 is false in general: with 1000 `CHEBY-1` nodes of type `GAUSS` on `[0, 1]` the last node is
moved to the boundary, which this quadrature type must not contain. -/
theorem C24_snapping_fails :
    ∃ c : Collocation 1000, Collocation.new 1000 "CHEBY-1" "GAUSS" 0 1 = .ok c ∧
      ∃ i, c.nodes i = 1 := by
  obtain ⟨c, hc⟩ := collocation_new_ok (M := 1000) (nt := "CHEBY-1") (qt := "GAUSS") (by decide)
    (by decide) ⟨by norm_num, by simp⟩ 0 1
  obtain ⟨x, hM, h⟩ := collocation_spec hc
  refine ⟨c, hc, ⟨999, by norm_num⟩, ?_⟩
  obtain ⟨x1, -, -, -, hx1, hf, -⟩ := C17_chebyshev_closed_form (n := 1000) (by norm_num)
  have := h.getNodes
  rw [hx1] at this
  obtain rfl : x1 = x := by simpa using this
  have hlast : 1 - 1 / 10 ^ 5 ≤ x1 ⟨999, by norm_num⟩ ∧ x1 ⟨999, by norm_num⟩ ≤ 1 := by
    rw [hf]
    refine ⟨?_, Real.cos_le_one _⟩
    have hpi := Real.pi_le_four
    have hpi0 := Real.pi_pos
    refine le_trans ?_ (Real.one_sub_sq_div_two_le_cos)
    norm_num
    nlinarith
  rw [h.nodes]
  have e : snapAt 0 ⟨0, hM⟩ (scaleNodes 0 1 x1) ⟨1000 - 1, by norm_num⟩ =
      (x1 ⟨999, by norm_num⟩ + 1) / 2 := by
    rw [snapAt_of_ne _ _ (by simp)]
    simp [scaleNodes]
  unfold snapAt at e ⊢
  rw [if_pos]
  · exact Function.update_self _ _ _
  · rw [e]
    unfold npIsClose
    have h3 : (0:ℝ) ≤ (x1 ⟨999, by norm_num⟩ + 1) / 2 := by linarith [hlast.1]
    rw [abs_of_nonneg (by linarith [hlast.2]), abs_of_nonneg h3]
    linarith [hlast.1]

/-- C24, corner case: a single `RADAU-RIGHT` node on an interval of length `1.000005e-8` is moved to
the *left* end (`np.allclose` is not symmetric), so the right end asked for is not a node. -/
theorem C24_single_node_fails :
    ∃ c : Collocation 1,
      Collocation.new 1 "LEGENDRE" "RADAU-RIGHT" 0 (1.000005 / 10 ^ 8) = .ok c ∧
      ∀ i, c.nodes i = 0 := by
  obtain ⟨c, hc⟩ := collocation_new_ok (M := 1) (nt := "LEGENDRE") (qt := "RADAU-RIGHT") (by decide)
    (by decide) ⟨by norm_num, by simp⟩ 0 (1.000005 / 10 ^ 8)
  obtain ⟨x, hM, h⟩ := collocation_spec hc
  refine ⟨c, hc, fun i => ?_⟩
  have hx1 : x ⟨0, hM⟩ = 1 := h.last (Or.inl rfl)
  have hb : scaleNodes 0 (1.000005 / 10 ^ 8) x ⟨0, hM⟩ = 1.000005 / 10 ^ 8 := by
    unfold scaleNodes; rw [hx1]; norm_num
  have hi : i = ⟨0, hM⟩ := Subsingleton.elim _ _
  rw [h.nodes, hi]
  change snapAt _ ⟨0, hM⟩ _ ⟨0, hM⟩ = 0
  have e : snapAt 0 ⟨0, hM⟩ (scaleNodes 0 (1.000005 / 10 ^ 8) x) ⟨0, hM⟩ = 0 := by
    unfold snapAt
    rw [if_pos, Function.update_self]
    rw [hb]; unfold npIsClose; norm_num [abs_of_pos, abs_of_neg]
  unfold snapAt at e ⊢
  rw [if_neg]
  · exact e
  · rw [e]; unfold npIsClose; norm_num [abs_of_pos]

/-- C25: the override of `S` in `Collocation` is the base-class `T @ Q`. -/
theorem C25_S_override {M : ℕ} {nt qt : String} {a b : ℝ} (hab : a < b)
    (c : Collocation M) (hc : Collocation.new M nt qt a b = .ok c) :
    c.S = .ok (qgenS c.Q) := by
  obtain ⟨x, hM, h⟩ := collocation_spec hc
  obtain ⟨S, hS, hSex⟩ := h.S_exact hab
  rw [hS]
  congr 1
  ext i j
  refine congrFun (weights_ext (h.strictMono hab).injective (w := S i) (w' := qgenS c.Q i)
    fun p hp => ?_) j
  have e1 := hSex p hp i
  have e2 := h.Q_exact hab p hp
  change ∑ j, S i j * p.eval (c.nodes j) = _ at e1
  rw [e1]
  by_cases hi : 0 < (i : ℕ)
  · have hr : ∀ j, qgenS c.Q i j = c.Q i j - c.Q ⟨i - 1, by omega⟩ j := fun j =>
      (C21_S_rows c.Q i j).2 hi
    simp only [hr, sub_mul, Finset.sum_sub_distrib]
    rw [if_neg (by omega), ← polyInt_adjacent p (c.nodes ⟨i - 1, by omega⟩) a (c.nodes i)]
    have e3 : ∑ j, c.Q i j * p.eval (c.nodes j) = polyInt p a (c.nodes i) := e2 i
    have e4 : ∑ j, c.Q ⟨i - 1, by omega⟩ j * p.eval (c.nodes j) =
      polyInt p a (c.nodes ⟨i - 1, by omega⟩) := e2 _
    rw [e3, e4]
    have := polyInt_adjacent p a (c.nodes ⟨i - 1, by omega⟩) (c.nodes i)
    have h5 := polyInt_adjacent p a (c.nodes ⟨i - 1, by omega⟩) a
    have h6 : polyInt p a a = 0 := by simp [polyInt]
    linarith
  · have hr : ∀ j, qgenS c.Q i j = c.Q i j := fun j => (C21_S_rows c.Q i j).1 (by omega)
    simp only [hr]
    rw [if_pos (by omega)]
    exact (e2 i).symm

/-- Instance: four nodes on `[1, 3]`. -/
example : ∃ c : Collocation 4, Collocation.new 4 "CHEBY-2" "RADAU-LEFT" 1 3 = .ok c ∧ c.S = .ok (qgenS c.Q) := by
  obtain ⟨c, hc⟩ := collocation_new_ok (M := 4) (nt := "CHEBY-2") (qt := "RADAU-LEFT") (by decide)
    (by decide) ⟨by norm_num, fun _ => by norm_num⟩ 1 3
  exact ⟨c, hc, C25_S_override (by norm_num) c hc⟩

/-! ## C26, C27 -/

/-- C26: if the last node is the right end, the weights are the last row of `Q`. -/
theorem C26_weights_last_row {M : ℕ} {nt qt : String} {a b : ℝ} (hab : a < b)
    (c : Collocation M) (hc : Collocation.new M nt qt a b = .ok c) (i : Fin M)
    (hi : c.nodes i = b) : c.weights = c.Q i := by
  obtain ⟨x, hM, h⟩ := collocation_spec hc
  refine weights_ext (h.strictMono hab).injective fun p hp => ?_
  have e1 := h.weights_exact hab p hp
  have e2 := h.Q_exact hab p hp i
  rw [QuadExact] at e1
  rw [e1, ← hi]
  exact e2.symm

/-- C26: if `1` is a node, `hCoeffs` picks the value at that node. -/
theorem C26_hCoeffs_unit {M : ℕ} {nt qt : String} {a b : ℝ} (hab : a < b)
    (c : Collocation M) (hc : Collocation.new M nt qt a b = .ok c) (i : Fin M)
    (hi : c.nodes i = 1) : c.hCoeffs = Pi.single i 1 := by
  obtain ⟨x, hM, h⟩ := collocation_spec hc
  refine weights_ext (h.strictMono hab).injective fun p hp => ?_
  have e1 := congrFun (h.interp hab (fun _ : Fin 1 => 1) p hp) 0
  change ∑ j, c.hCoeffs j * p.eval (c.nodes j) = p.eval 1 at e1
  rw [e1]
  simp [Pi.single_apply, hi]

/-- C27: `hCoeffs` is the interpolation at `1`; when the interval ends at `1` this is the right end of
the step. -/
theorem C27_hCoeffs {M : ℕ} {nt qt : String} {a b : ℝ} (hab : a < b)
    (c : Collocation M) (hc : Collocation.new M nt qt a b = .ok c) (p : ℝ[X]) (hp : p.degree < M) :
    ∑ j, c.hCoeffs j * p.eval (c.nodes j) = p.eval 1 := by
  obtain ⟨x, hM, h⟩ := collocation_spec hc
  exact congrFun (h.interp hab (fun _ : Fin 1 => 1) p hp) 0

/-- Instance: three Gauss nodes extrapolate `x ^ 2` to `1`. -/
example : ∃ c : Collocation 3, Collocation.new 3 "LEGENDRE" "GAUSS" 0 1 = .ok c ∧
    ∑ j, c.hCoeffs j * (X ^ 2 : ℝ[X]).eval (c.nodes j) = 1 := by
  obtain ⟨c, hc⟩ := collocation_new_ok (M := 3) (nt := "LEGENDRE") (qt := "GAUSS") (by decide)
    (by decide) ⟨by norm_num, fun h => by simp at h⟩ 0 1
  exact ⟨c, hc, (C27_hCoeffs (by norm_num) c hc (X ^ 2) (by rw [degree_X_pow]; norm_num)).trans (by simp)⟩

/-- C27 is false for another right end: on every configuration with at least two nodes and
`tRight ≠ 1`, `hCoeffs` does not give the value at `tRight` of the polynomial `X`. -/
theorem C27_hCoeffs_fails {M : ℕ} (hM : 2 ≤ M) {nt qt : String} {a b : ℝ} (hab : a < b) (hb : b ≠ 1)
    (c : Collocation M) (hc : Collocation.new M nt qt a b = .ok c) :
    ∑ j, c.hCoeffs j * (X : ℝ[X]).eval (c.nodes j) ≠ (X : ℝ[X]).eval b := by
  rw [C27_hCoeffs hab c hc X (by rw [degree_X]; exact_mod_cast hM)]
  simpa using hb.symm

/-! ## C28 -/

theorem degree_comp_affine {p : ℝ[X]} {n : ℕ} (hp : p.degree < n) (s t : ℝ) :
    (p.comp (C s * X + C t)).degree < n := by
  by_cases h0 : p = 0
  · subst h0; simp
  · rw [degree_eq_natDegree h0] at hp
    have hp' : p.natDegree < n := by exact_mod_cast hp
    refine lt_of_le_of_lt degree_le_natDegree ?_
    rw [natDegree_comp]
    have h1 : (C s * X + C t : ℝ[X]).natDegree ≤ 1 := natDegree_linear_le
    have : p.natDegree * (C s * X + C t : ℝ[X]).natDegree < n := by nlinarith
    exact_mod_cast this

/-- C28: the weights integrate every polynomial of degree `< order` exactly, provided the closeness
tests of the constructor left the nodes where they were.  Missing: without this hypothesis the claim
is false, see `C28_order_fails`. -/
theorem C28_quadrature_order_unmoved {M : ℕ} {nt qt : String} {a b : ℝ} (hab : a < b)
    (c : Collocation M) (hc : Collocation.new M nt qt a b = .ok c)
    (x : Fin M → ℝ) (hx : getNodes ⟨nt, qt⟩ M = .ok x)
    (hun : ∀ i, c.nodes i = a + (b - a) * ((x i + 1) / 2)) :
    ∃ order, c.order = some order ∧ M ≤ order ∧ ∀ p : ℝ[X], p.degree < order →
      ∑ j, c.weights j * p.eval (c.nodes j) = ∫ t in a..b, p.eval t := by
  obtain ⟨x', hM, h⟩ := collocation_spec hc
  have := h.getNodes
  rw [hx] at this
  cases this
  have hn := validSize_of_getNodes hx
  have hord : c.order = some (M + nodeBonus nt qt M) := by
    unfold Collocation.order nodeBonus legBonus
    rw [h.nodeType, h.quadType]
    have hqt := h.hqt
    by_cases h1 : nt = "LEGENDRE"
    · subst h1
      simp only [QUAD_TYPES, List.mem_cons, List.not_mem_nil, or_false] at hqt
      rcases hqt with rfl | rfl | rfl | rfl
      · simp; omega
      · simp [show pyStartsWith "RADAU-LEFT" "RADAU" = true by decide]; omega
      · simp [show pyStartsWith "RADAU-RIGHT" "RADAU" = true by decide]; omega
      · have := hn.2 (Or.inl rfl)
        simp [show pyStartsWith "LOBATTO" "RADAU" = false by decide]; omega
    · rw [if_pos h1, if_neg h1]
      split_ifs <;> simp
  refine ⟨_, hord, Nat.le_add_right _ _, fun p hp => ?_⟩
  have hba : b - a ≠ 0 := by linarith
  -- weights on `[-1, 1]`
  have hw : ∀ q : ℝ[X], q.degree < M → QuadExact x (fun i => c.weights i * (2 / (b - a))) (-1) 1 q := by
    intro q hq
    set P := q.comp (C (2 / (b - a)) * X + C (-(b + a) / (b - a))) with hP
    have h1 := h.weights_exact hab P (degree_comp_affine hq _ _)
    rw [QuadExact, ← polyInt_affine] at h1
    have h2 : P.comp (C ((b - a) / 2) * X + C ((b + a) / 2)) = q := by
      refine Polynomial.funext fun t => ?_
      simp only [hP, eval_comp, eval_add, eval_mul, eval_C, eval_X]
      congr 1
      field_simp
      ring
    rw [h2] at h1
    have h3 : ∀ i, P.eval (c.nodes i) = q.eval (x i) := fun i => by
      simp only [hP, eval_comp, eval_add, eval_mul, eval_C, eval_X, hun i]
      congr 1
      field_simp
      ring
    simp only [h3] at h1
    rw [QuadExact]
    have : ∀ i, c.weights i * (2 / (b - a)) * q.eval (x i) =
        2 / (b - a) * (c.weights i * q.eval (x i)) := fun i => by ring
    simp only [this]
    rw [← Finset.mul_sum, h1]
    field_simp
  have hq := quadExact_of_orth hw (nodes_orth h.hqt x hx)
    (p.comp (C ((b - a) / 2) * X + C ((b + a) / 2))) (degree_comp_affine hp _ _)
  rw [QuadExact] at hq
  have e := polyInt_affine p a b
  rw [← hq] at e
  change _ = polyInt p a b
  rw [← e, Finset.sum_mul]
  refine Finset.sum_congr rfl fun i _ => ?_
  rw [eval_comp]
  simp only [eval_add, eval_mul, eval_C, eval_X]
  have : (b - a) / 2 * x i + (b + a) / 2 = c.nodes i := by rw [hun i]; ring
  rw [this]
  field_simp

/-- The nodes are left where they are when the closeness tests see only the end nodes asked for. -/
theorem nodes_unsnapped {M : ℕ} {nt qt : String} {a b : ℝ}
    (c : Collocation M) (hc : Collocation.new M nt qt a b = .ok c)
    (x : Fin M → ℝ) (hx : getNodes ⟨nt, qt⟩ M = .ok x) (hM : 0 < M)
    (hl : x ⟨0, hM⟩ = -1 ∨ ¬ npIsClose a (a + (b - a) * ((x ⟨0, hM⟩ + 1) / 2)))
    (hr : x ⟨M - 1, by omega⟩ = 1 ∨
      ¬ npIsClose b (a + (b - a) * ((x ⟨M - 1, by omega⟩ + 1) / 2))) (i : Fin M) :
    c.nodes i = a + (b - a) * ((x i + 1) / 2) := by
  obtain ⟨x', hM, h⟩ := collocation_spec hc
  have := h.getNodes
  rw [hx] at this
  cases this
  have e : ∀ i, scaleNodes a b x i = a + (b - a) * ((x i + 1) / 2) := fun i => by
    unfold scaleNodes; ring
  have h1 : snapAt a ⟨0, hM⟩ (scaleNodes a b x) = scaleNodes a b x := by
    rcases hl with hl | hl
    · exact snapAt_self (by rw [e, hl]; ring)
    · unfold snapAt; rw [e, if_neg hl]
  have h2 : snapAt b ⟨M - 1, by omega⟩ (scaleNodes a b x) = scaleNodes a b x := by
    rcases hr with hr | hr
    · exact snapAt_self (by rw [e, hr]; ring)
    · unfold snapAt; rw [e, if_neg hr]
  rw [h.nodes, h1, h2, e]

/-- C28 for `LOBATTO`, without any condition: the end nodes are already where the constructor would
put them. -/
theorem C28_quadrature_order_lobatto {M : ℕ} {nt : String} {a b : ℝ} (hab : a < b)
    (c : Collocation M) (hc : Collocation.new M nt "LOBATTO" a b = .ok c) :
    ∃ order, c.order = some order ∧ M ≤ order ∧ ∀ p : ℝ[X], p.degree < order →
      ∑ j, c.weights j * p.eval (c.nodes j) = ∫ t in a..b, p.eval t := by
  obtain ⟨x, hM, h⟩ := collocation_spec hc
  refine C28_quadrature_order_unmoved hab c hc x h.getNodes (nodes_unsnapped c hc x h.getNodes hM
    (Or.inl (h.first (Or.inr rfl))) (Or.inl (h.last (Or.inr rfl))))

/-- Instance: four Lobatto nodes on `[1, 3]`. -/
example : ∃ c : Collocation 4, Collocation.new 4 "LEGENDRE" "LOBATTO" 1 3 = .ok c ∧ ∃ order, c.order = some order ∧
    4 ≤ order := by
  obtain ⟨c, hc⟩ := collocation_new_ok (M := 4) (nt := "LEGENDRE") (qt := "LOBATTO") (by decide)
    (by decide) ⟨by norm_num, fun _ => by norm_num⟩ 1 3
  obtain ⟨order, h, h', -⟩ := C28_quadrature_order_lobatto (by norm_num) c hc
  exact ⟨c, hc, order, h, h'⟩

/-- C28 is false without the condition: one `GAUSS` node on `[10^6, 10^6+1]` has `order = 2`, but the
constructor moves the node to the right end and the weights do not integrate `X`. -/
theorem C28_order_fails :
    ∃ c : Collocation 1, Collocation.new 1 "LEGENDRE" "GAUSS" (10 ^ 6) (10 ^ 6 + 1) = .ok c ∧
      c.order = some 2 ∧ (X : ℝ[X]).degree < (2 : ℕ) ∧
      ∑ j, c.weights j * (X : ℝ[X]).eval (c.nodes j) ≠
        ∫ t in (10 ^ 6 : ℝ)..10 ^ 6 + 1, (X : ℝ[X]).eval t := by
  obtain ⟨c, hc⟩ := collocation_new_ok (M := 1) (nt := "LEGENDRE") (qt := "GAUSS") (by decide)
    (by decide) ⟨by norm_num, by simp⟩ (10 ^ 6) (10 ^ 6 + 1)
  obtain ⟨x, hM, h⟩ := collocation_spec hc
  have hab : (10 ^ 6 : ℝ) < 10 ^ 6 + 1 := by norm_num
  refine ⟨c, hc, ?_, by rw [degree_X]; norm_num, ?_⟩
  · unfold Collocation.order; rw [h.nodeType, h.quadType]; simp
  · have hx1 := (h.base.2.1) ⟨0, hM⟩
    have hnode : c.nodes 0 = 10 ^ 6 + 1 := by
      rw [h.nodes]
      change snapAt _ ⟨0, hM⟩ _ ⟨0, hM⟩ = _
      have e : snapAt (10 ^ 6) ⟨0, hM⟩ (scaleNodes (10 ^ 6) (10 ^ 6 + 1) x) ⟨0, hM⟩ = 10 ^ 6 := by
        have hsc := scaleNodes_mem hab (x := x) (i := ⟨0, hM⟩) hx1
        unfold snapAt
        rw [if_pos, Function.update_self]
        unfold npIsClose
        rw [abs_sub_comm, abs_of_nonneg (by linarith [hsc.1]),
          abs_of_nonneg (by have := hsc.1; norm_num at this ⊢; linarith)]
        have h1 := hsc.1
        have h2 := hsc.2
        norm_num at h1 h2 ⊢
        linarith
      unfold snapAt at e ⊢
      rw [if_pos, Function.update_self]
      rw [e]
      unfold npIsClose
      norm_num
    have hw : c.weights 0 = 1 := by
      have := (C23_collocation_row_sums hab c hc).2.1
      simpa using this
    rw [Fin.sum_univ_one, hw, hnode]
    have : ∫ t in (10 ^ 6 : ℝ)..10 ^ 6 + 1, (X : ℝ[X]).eval t =
        ((10 ^ 6 + 1) ^ 2 - (10 ^ 6) ^ 2) / 2 := by
      simp only [eval_X]
      rw [integral_id]
    rw [this]
    norm_num

/-- The hypotheses of C22 - C28 are met by the default configuration with three `LOBATTO` nodes. -/
example : ∃ c : Collocation 3, Collocation.new 3 "LEGENDRE" "LOBATTO" = .ok c ∧
    c.order = some 4 ∧ c.hCoeffs = Pi.single 2 1 ∧ c.weights = c.Q 2 := by
  obtain ⟨c, hc⟩ := collocation_new_ok (M := 3) (nt := "LEGENDRE") (qt := "LOBATTO") (by decide)
    (by decide) ⟨by norm_num, fun _ => by norm_num⟩ 0 1
  obtain ⟨x, hM, h⟩ := collocation_spec hc
  have h2 : c.nodes 2 = 1 := by
    rw [nodes_unsnapped c hc x h.getNodes hM (Or.inl (h.first (Or.inr rfl)))
      (Or.inl (h.last (Or.inr rfl)))]
    have : x 2 = 1 := h.last (Or.inr rfl)
    rw [this]; norm_num
  refine ⟨c, hc, ?_, C26_hCoeffs_unit (by norm_num) c hc 2 h2,
    C26_weights_last_row (by norm_num) c hc 2 h2⟩
  unfold Collocation.order; rw [h.nodeType, h.quadType]
  simp [show pyStartsWith "LOBATTO" "RADAU" = false by decide]

/-- Instance of `C24_boundary_nodes_unmoved`, `C28_quadrature_order_unmoved`: three Lobatto nodes. -/
example : ∃ c : Collocation 3, Collocation.new 3 "LEGENDRE" "LOBATTO" = .ok c ∧ (∃ i, c.nodes i = 0) ∧
    ∃ order, c.order = some order ∧ 3 ≤ order := by
  obtain ⟨c, hc⟩ := collocation_new_ok (M := 3) (nt := "LEGENDRE") (qt := "LOBATTO") (by decide)
    (by decide) ⟨by norm_num, fun _ => by norm_num⟩ 0 1
  obtain ⟨x, hM, h⟩ := collocation_spec hc
  have hun := nodes_unsnapped c hc x h.getNodes hM (Or.inl (h.first (Or.inr rfl))) (Or.inl (h.last (Or.inr rfl)))
  obtain ⟨order, ho, hle, -⟩ := C28_quadrature_order_unmoved (by norm_num) c hc x h.getNodes hun
  exact ⟨c, hc, ((C24_boundary_nodes_unmoved (by norm_num) c hc x h.getNodes hun).1).2 (Or.inr rfl), order, ho, hle⟩

end QMat
