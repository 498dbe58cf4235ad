import Verif.Lemmas.QDeltaGen
import Verif.Lemmas.Collocation
import Mathlib.Tactic.FinCases
import Mathlib.Tactic.NormNum

/-!
# C41, C48, C49, C50: shapes, relations and tables of the `QDelta` generators

`C ∈ qDeltaClasses ext` ranges over the registered classes; `C.call [] params` is `C(**params)`.
-/

set_option linter.unusedSimpArgs false

namespace QMat

open Matrix

/-! ## C41 -/

/-- Names of the registered classes whose coefficients are diagonal. -/
def diagonalClasses : List String :=
  ["PIC", "QPar", "LDU", "MIN", "MIN3", "MIN_VDHS", "MIN_SR_NS", "MIN_SR_S", "MIN_SR_FLEX",
    "Jumper", "FlexJumper", "DNODES", "DNODES2", "DNODES3", "DNODES4", "DNODES5", "BEPAR", "TRAPAR"]

theorem useQGen_tLeft {params d : PyDict PyVal}
    (h : useQGen PyVal.isNone ["nodes", "tLeft"] extractNodes [] params = .ok d)
    (ht : params "tLeft" = none ∨ params "tLeft" = some (.real 0)) : paramTLeft d = .ok 0 := by
  rcases useQGen_kw h (n := "tLeft") (by decide) (by decide) with h1 | ⟨-, q, e, he, h1⟩
  · rcases ht with h2 | h2 <;> rw [h2] at h1 <;> simp [paramTLeft, h1]
  · have : e "tLeft" = none := by
      unfold extractNodes at he
      split at he
      · cases he; rfl
      · cases he; rfl
      · cases he
    rw [this] at h1
    simp [paramTLeft, h1]

theorem BEPAR_diag {n : ℕ} {v : Fin n → ℝ} {t : TimeStepping n} (h : TimeStepping.new v 0 = .ok t) :
    IsDiagonal t.computeBEPAR ∧ IsDiagonal t.computeTRAPAR := by
  obtain ⟨-, -, h2, -⟩ := t.new_ok h
  constructor
  · intro i j hij
    simp [TimeStepping.computeBEPAR, h2, hij]
  · intro i j hij
    simp [TimeStepping.computeTRAPAR, h2, hij]

/-- C41: the matrix computed by a diagonal class is diagonal, for every parameter and every sweep
(`BEPAR` and `TRAPAR` with left bound `0`). -/
theorem C41_diagonal (ext : ExternalNum) (C : QDClass) (hC : C ∈ qDeltaClasses ext)
    (hname : C.name ∈ diagonalClasses) (params : PyDict PyVal)
    (ht : C.name = "BEPAR" ∨ C.name = "TRAPAR" →
      params "tLeft" = none ∨ params "tLeft" = some (.real 0))
    (g : QDeltaGen) (hg : C.call [] params = .ok g) (k : Option ℤ)
    (A : Matrix (Fin g.size) (Fin g.size) ℝ) (hA : g.getQDelta k = .ok A) : ∀ i j, i ≠ j → A i j = 0 := by
  change IsDiagonal A
  obtain ⟨d, hd, hg⟩ := bind_ok hg
  simp only [qDeltaClasses, List.mem_cons, List.not_mem_nil, or_false] at hC
  rcases hC with rfl | rfl | rfl | rfl | rfl | rfl | rfl | rfl | rfl | rfl | rfl | rfl | rfl | rfl |
    rfl | rfl | rfl | rfl | rfl | rfl | rfl | rfl | rfl | rfl | rfl | rfl
  -- PIC
  · obtain ⟨n, Q, -, rfl⟩ := classQ_init hg; cases hA; intro i j _; rfl
  · exact absurd hname (by simp [diagonalClasses, classQ, classTime, classNodes, classTable, classMINSRS, classMINSRFLEX])
  · exact absurd hname (by simp [diagonalClasses, classQ, classTime, classNodes, classTable, classMINSRS, classMINSRFLEX])
  · exact absurd hname (by simp [diagonalClasses, classQ, classTime, classNodes, classTable, classMINSRS, classMINSRFLEX])
  -- QPar
  · obtain ⟨n, Q, -, rfl⟩ := classQ_init hg; cases hA; exact isDiagonal_diagonal _
  · exact absurd hname (by simp [diagonalClasses, classQ, classTime, classNodes, classTable, classMINSRS, classMINSRFLEX])
  -- LDU, MIN, MIN3, MIN_VDHS, MIN_SR_NS
  · obtain ⟨n, Q, -, rfl⟩ := classQ_init hg; exact computeLDU_diag hA
  · obtain ⟨n, Q, -, rfl⟩ := classQ_init hg; exact computeMIN_diag hA
  · obtain ⟨n, nt, qt, -, -, -, rfl⟩ := classTable_init hg; exact computeFromTable_diag hA
  · obtain ⟨n, nt, qt, -, -, -, rfl⟩ := classTable_init hg; exact computeFromTable_diag hA
  · obtain ⟨n, v, -, rfl⟩ := classNodes_init hg; cases hA; exact isDiagonal_div _ _
  -- MIN_SR_S, MIN_SR_FLEX, Jumper, FlexJumper
  · obtain ⟨n, nt, qt, c, -, -, -, -, rfl⟩ := classMINSRS_init hg; exact computeMINSRS_diag hA
  · obtain ⟨n, nt, qt, c, -, -, -, -, rfl⟩ := classMINSRFLEX_init hg; exact computeMINSRFLEX_diag hA
  · obtain ⟨n, v, -, rfl⟩ := classNodes_init hg; exact computeJumper_diag hA
  · obtain ⟨n, v, -, rfl⟩ := classNodes_init hg; exact computeFlexJumper_diag hA
  -- DNODES
  · obtain ⟨n, v, -, rfl⟩ := classNodes_init hg; cases hA; exact isDiagonal_div _ _
  · obtain ⟨n, v, -, rfl⟩ := classNodes_init hg; cases hA; exact isDiagonal_div _ _
  · obtain ⟨n, v, -, rfl⟩ := classNodes_init hg; cases hA; exact isDiagonal_div _ _
  · obtain ⟨n, v, -, rfl⟩ := classNodes_init hg; cases hA; exact isDiagonal_div _ _
  · obtain ⟨n, v, -, rfl⟩ := classNodes_init hg; cases hA; exact isDiagonal_div _ _
  -- time stepping
  · exact absurd hname (by simp [diagonalClasses, classQ, classTime, classNodes, classTable, classMINSRS, classMINSRFLEX])
  · exact absurd hname (by simp [diagonalClasses, classQ, classTime, classNodes, classTable, classMINSRS, classMINSRFLEX])
  · exact absurd hname (by simp [diagonalClasses, classQ, classTime, classNodes, classTable, classMINSRS, classMINSRFLEX])
  · obtain ⟨n, v, tl, t, -, htl, h, rfl⟩ := classTime_init hg
    rw [useQGen_tLeft hd (ht (Or.inl rfl))] at htl
    cases htl
    cases hA
    exact (BEPAR_diag h).1
  · obtain ⟨n, v, tl, t, -, htl, h, rfl⟩ := classTime_init hg
    rw [useQGen_tLeft hd (ht (Or.inr rfl))] at htl
    cases htl
    cases hA
    exact (BEPAR_diag h).2
  · exact absurd hname (by simp [diagonalClasses, classQ, classTime, classNodes, classTable, classMINSRS, classMINSRFLEX])

/-- Instance: the third sweep of the diagonal generator `Jumper`. -/
example (ext : ExternalNum) : ∃ C ∈ qDeltaClasses ext, C.name ∈ diagonalClasses ∧ ∃ g A,
    C.call [] (PyDict.single "nodes" (.array 2 ![1 / 3, 1])) = .ok g ∧ g.getQDelta (some 3) = .ok A ∧
    ∀ i j, i ≠ j → A i j = 0 := by
  refine ⟨classNodes "Jumper" ["JUMPER", "FB"] true fun v k => computeJumper v k, by simp [qDeltaClasses], by decide,
    _, _, rfl, rfl, ?_⟩
  exact C41_diagonal ext (classNodes "Jumper" ["JUMPER", "FB"] true fun v k => computeJumper v k)
    (by simp [qDeltaClasses]) (by decide) (PyDict.single "nodes" (.array 2 ![1 / 3, 1])) (fun _ => Or.inl rfl) _ rfl (some 3) _ rfl

/-- C41: `PIC`, `FE` and `SOE` are strictly lower triangular (the sweep is explicit). -/
theorem C41_strictly_lower (ext : ExternalNum) (C : QDClass) (hC : C ∈ qDeltaClasses ext)
    (hname : C.name ∈ ["PIC", "FE", "SOE"]) (params : PyDict PyVal)
    (g : QDeltaGen) (hg : C.call [] params = .ok g) (k : Option ℤ)
    (A : Matrix (Fin g.size) (Fin g.size) ℝ) (hA : g.getQDelta k = .ok A) :
    ∀ i j, i ≤ j → A i j = 0 := by
  change IsStrictLower A
  obtain ⟨d, hd, hg⟩ := bind_ok hg
  simp only [qDeltaClasses, List.mem_cons, List.not_mem_nil, or_false] at hC
  rcases hC with rfl | rfl | rfl | rfl | rfl | rfl | rfl | rfl | rfl | rfl | rfl | rfl | rfl | rfl |
    rfl | rfl | rfl | rfl | rfl | rfl | rfl | rfl | rfl | rfl | rfl | rfl
  all_goals try (refine absurd hname ?_; simp [diagonalClasses, classQ, classTime, classNodes, classTable, classMINSRS, classMINSRFLEX]; done)
  · obtain ⟨n, Q, -, rfl⟩ := classQ_init hg; cases hA; intro i j _; rfl
  · obtain ⟨n, v, tl, t, -, htl, h, rfl⟩ := classTime_init hg
    cases hA
    intro i j hij
    rw [t.computeFE_apply, if_neg (not_lt.mpr hij)]
  · obtain ⟨n, v, tl, t, -, htl, h, rfl⟩ := classTime_init hg
    exact computeSOE_strictLower hA

/-- Instance: forward Euler. -/
example (ext : ExternalNum) : ∃ C ∈ qDeltaClasses ext, C.name = "FE" ∧ ∃ g A,
    C.call [] (PyDict.single "nodes" (.array 2 ![1 / 3, 1])) = .ok g ∧ g.getQDelta none = .ok A ∧
    ∀ i j, i ≤ j → A i j = 0 := by
  refine ⟨classTime "FE" ["EE"] (fun g => .ok g.computeFE) TimeStepping.dTauFE, by simp [qDeltaClasses], rfl,
    _, _, rfl, rfl, ?_⟩
  exact C41_strictly_lower ext (classTime "FE" ["EE"] (fun g => .ok g.computeFE) TimeStepping.dTauFE)
    (by simp [qDeltaClasses]) (by decide) (PyDict.single "nodes" (.array 2 ![1 / 3, 1])) _ rfl none _ rfl

/-- C41: every registered class except `Exact` computes a lower triangular matrix, for every
parameter and every sweep (`BEPAR` and `TRAPAR` with left bound `0`), provided that the third factor
returned by `scipy.linalg.lu` is upper triangular. -/
theorem C41_lower (ext : ExternalNum)
    (hlu : ∀ {n : ℕ} (A : Matrix (Fin n) (Fin n) ℝ) (i j : Fin n), j < i → (ext.lu A).2.2 i j = 0)
    (C : QDClass) (hC : C ∈ qDeltaClasses ext)
    (hname : C.name ≠ "Exact") (params : PyDict PyVal)
    (ht : C.name = "BEPAR" ∨ C.name = "TRAPAR" →
      params "tLeft" = none ∨ params "tLeft" = some (.real 0))
    (g : QDeltaGen) (hg : C.call [] params = .ok g) (k : Option ℤ)
    (A : Matrix (Fin g.size) (Fin g.size) ℝ) (hA : g.getQDelta k = .ok A) :
    ∀ i j, i < j → A i j = 0 := by
  by_cases hdg : C.name ∈ diagonalClasses
  · exact fun i j hij => C41_diagonal ext C hC hdg params ht g hg k A hA i j hij.ne
  by_cases hst : C.name ∈ ["PIC", "FE", "SOE"]
  · exact fun i j hij => C41_strictly_lower ext C hC hst params g hg k A hA i j hij.le
  change IsLower A
  obtain ⟨d, hd, hg⟩ := bind_ok hg
  simp only [qDeltaClasses, List.mem_cons, List.not_mem_nil, or_false] at hC
  rcases hC with rfl | rfl | rfl | rfl | rfl | rfl | rfl | rfl | rfl | rfl | rfl | rfl | rfl | rfl |
    rfl | rfl | rfl | rfl | rfl | rfl | rfl | rfl | rfl | rfl | rfl | rfl
  all_goals try (refine absurd ?_ hdg; simp [diagonalClasses, classQ, classTime, classNodes, classTable, classMINSRS, classMINSRFLEX]; done)
  all_goals try (refine absurd ?_ hst; simp [diagonalClasses, classQ, classTime, classNodes, classTable, classMINSRS, classMINSRFLEX]; done)
  · exact absurd rfl hname
  -- LU, LU2, GS
  · obtain ⟨n, Q, -, rfl⟩ := classQ_init hg; cases hA; intro i j hij; exact hlu _ j i hij
  · obtain ⟨n, Q, -, rfl⟩ := classQ_init hg
    cases hA
    intro i j hij
    change (ext.lu Qᵀ).2.2 j i * 2 = 0
    rw [hlu _ j i hij, zero_mul]
  · obtain ⟨n, Q, -, rfl⟩ := classQ_init hg
    cases hA
    intro i j hij
    simp [computeGS, not_le.mpr hij]
  -- BE, TRAP
  · obtain ⟨n, v, tl, t, -, htl, h, rfl⟩ := classTime_init hg
    cases hA
    intro i j hij
    rw [t.computeBE_apply, if_neg (not_le.mpr hij)]
  · obtain ⟨n, v, tl, t, -, htl, h, rfl⟩ := classTime_init hg
    cases hA
    intro i j hij
    rw [t.computeTRAP_eq, t.computeBE_apply, t.computeFE_apply, if_neg (not_le.mpr hij),
      if_neg (not_lt.mpr hij.le)]
    simp

/-- External routines satisfying the contracts used here. -/
def trivialExt : ExternalNum where
  lu A := (1, 1, A)
  fsolve _ x := x
  minimize _ x := x

/-- The external routine that keeps the upper triangle satisfies the hypothesis of `C41_lower`. -/
example : ∃ ext : ExternalNum, ∀ {n : ℕ} (A : Matrix (Fin n) (Fin n) ℝ) (i j : Fin n), j < i →
    (ext.lu A).2.2 i j = 0 :=
  ⟨{ trivialExt with lu := fun A => (1, 1, Matrix.of fun i j => if j < i then 0 else A i j) },
    fun A i j h => by simp [h]⟩

/-- `BE(nodes=[1, 2], tLeft=0.5)` can be built and computed. -/
example (ext : ExternalNum) : ∃ C ∈ qDeltaClasses ext, C.name = "BE" ∧ ∃ g,
    C.call [] ((PyDict.single "nodes" (.array 2 ![1, 2])).update
      (PyDict.single "tLeft" (.real (1 / 2)))) = .ok g ∧ ∃ A, g.getQDelta none = .ok A := by
  refine ⟨classTime "BE" ["IE"] (fun g => .ok g.computeBE) fun _ => 0,
    by simp [qDeltaClasses], rfl, ?_⟩
  refine ⟨_, rfl, _, rfl⟩

/-- C41 (finding): with a non-zero left bound `BEPAR` and `TRAPAR` are full matrices. -/
theorem C41_bepar_tLeft_fails (ext : ExternalNum) : ∀ name ∈ ["BEPAR", "TRAPAR"],
    ∃ C ∈ qDeltaClasses ext, C.name = name ∧ ∃ g,
    C.call [] ((PyDict.single "nodes" (.array 2 ![2, 3])).update
      (PyDict.single "tLeft" (.real 1))) = .ok g ∧
    ∃ A, g.getQDelta none = .ok A ∧ ¬ IsLower A := by
  intro name hname
  simp only [List.mem_cons, List.not_mem_nil, or_false] at hname
  rcases hname with rfl | rfl
  · refine ⟨classTime "BEPAR" ["IEpar"] (fun g => .ok g.computeBEPAR) fun _ => 0,
      by simp [qDeltaClasses], rfl, _, rfl, _, rfl, fun h => ?_⟩
    have : (_ : ℝ) = 0 := h (0 : Fin 2) (1 : Fin 2) (by decide)
    simp [TimeStepping.computeBEPAR] at this
  · refine ⟨classTime "TRAPAR" [] (fun g => .ok g.computeTRAPAR) fun g => g.dTauTRAPAR,
      by simp [qDeltaClasses], rfl, _, rfl, _, rfl, fun h => ?_⟩
    have : (_ : ℝ) = 0 := h (0 : Fin 2) (1 : Fin 2) (by decide)
    simp [TimeStepping.computeTRAPAR] at this

/-! ## C48 -/

/-- `nodes=x` as keyword argument. -/
def kwNodes {n : ℕ} (x : Fin n → ℝ) : PyDict PyVal := PyDict.single "nodes" (.array n x)

/-- `Q=Q` as keyword argument. -/
def kwQ {n : ℕ} (Q : Matrix (Fin n) (Fin n) ℝ) : PyDict PyVal := PyDict.single "Q" (.matrix n Q)

/-- `qGen=coll` as keyword argument. -/
def kwColl {n : ℕ} (c : Collocation n) : PyDict PyVal := PyDict.single "qGen" (.qgen (.coll n c))

theorem checkK_pos {k : ℤ} (hk : 1 ≤ k) : checkK (some k) = .ok k := by
  simp [checkK, not_lt.mpr hk]

theorem of_div_eq {n : ℕ} (x : Fin n → ℝ) (y : ℝ) :
    (Matrix.of fun r c => Matrix.diagonal x r c / y) = Matrix.diagonal fun i => x i / y := by
  ext i j
  by_cases h : i = j
  · subst h; simp
  · simp [h]

/-- C48: closed forms of the node-based diagonal coefficients, for every sweep `k ≥ 1`:
`MIN-SR-NS = diag(nodes)/M`, `Jumper(k) = diag(nodes)/(2k)`, `FlexJumper(1) = diag(nodes)`,
`FlexJumper(k+1) = Jumper(k)`, `DNODES-j = diag(nodes)/j` (any sweep). -/
theorem C48_node_based (ext : ExternalNum) {n : ℕ} (x : Fin n → ℝ) (k : ℤ) (hk : 1 ≤ k)
    (k' : Option ℤ) :
    getQD ext "MIN-SR-NS" (kwNodes x) k' = .ok ⟨n, Matrix.diagonal fun i => x i / n⟩ ∧
    getQD ext "JUMPER" (kwNodes x) (some k) = .ok ⟨n, Matrix.diagonal fun i => x i / (2 * k)⟩ ∧
    getQD ext "FLEX-JUMPER" (kwNodes x) (some 1) = .ok ⟨n, Matrix.diagonal x⟩ ∧
    getQD ext "FLEX-JUMPER" (kwNodes x) (some (k + 1)) = getQD ext "JUMPER" (kwNodes x) (some k) ∧
    ∀ j ∈ [1, 2, 3, 4, 5], getQD ext s!"DNODES-{j}" (kwNodes x) k' =
      .ok ⟨n, Matrix.diagonal fun i => x i / (j : ℕ)⟩ := by
  have hJ : ∀ k : ℤ, 1 ≤ k → getQD ext "JUMPER" (kwNodes x) (some k) =
      .ok ⟨n, Matrix.diagonal fun i => x i / (2 * k)⟩ := fun k hk => by
    have : computeJumper x (some k) = .ok (Matrix.diagonal fun i => x i / (2 * k)) := by
      simp only [computeJumper, checkK_pos hk, bind, Except.bind, pure, Except.pure, of_div_eq]
    change (do
      let A ← computeJumper x (some k)
      return (⟨n, A⟩ : Σ n, Matrix (Fin n) (Fin n) ℝ)) = _
    rw [this]
    rfl
  have hF : ∀ k : ℤ, 1 ≤ k → getQD ext "FLEX-JUMPER" (kwNodes x) (some k) =
      .ok ⟨n, Matrix.diagonal fun i => x i / ((if k = 1 then 1 else 2 * (k - 1) : ℤ) : ℝ)⟩ :=
    fun k hk => by
    have : computeFlexJumper x (some k) =
        .ok (Matrix.diagonal fun i => x i / ((if k = 1 then 1 else 2 * (k - 1) : ℤ) : ℝ)) := by
      simp only [computeFlexJumper, checkK_pos hk, bind, Except.bind, pure, Except.pure, of_div_eq]
    change (do
      let A ← computeFlexJumper x (some k)
      return (⟨n, A⟩ : Σ n, Matrix (Fin n) (Fin n) ℝ)) = _
    rw [this]
    rfl
  refine ⟨?_, hJ k hk, ?_, ?_, ?_⟩
  · rw [← of_div_eq]
    rfl
  · rw [hF 1 le_rfl]
    simp
  · rw [hF (k + 1) (by omega), hJ k hk, if_neg (by omega)]
    push_cast
    simp only [add_sub_cancel_right]
  · intro j hj
    rw [← of_div_eq]
    fin_cases hj <;> rfl

/-- Instance: the second sweep of `Jumper` with two nodes. -/
example (ext : ExternalNum) : getQD ext "JUMPER" (kwNodes ![1 / 3, 1]) (some 2) =
    .ok ⟨2, Matrix.diagonal fun i => ![1 / 3, 1] i / (2 * (2 : ℤ))⟩ :=
  (C48_node_based ext ![1 / 3, 1] 2 (by norm_num) none).2.1

/-- C48: on the nodes of a `Collocation` on `[0, 1]`, `MIN-SR-FLEX(k) = diag(nodes)/k` for
`1 ≤ k ≤ M`, twice `Jumper(k)`. -/
theorem C48_flex (ext : ExternalNum) {M : ℕ} {nt qt : String} (c : Collocation M)
    (hc : Collocation.new M nt qt = .ok c) (k : ℤ) (hk : 1 ≤ k) (hkM : k ≤ M) :
    getQD ext "MIN-SR-FLEX" (kwColl c) (some k) = .ok ⟨M, Matrix.diagonal fun i => c.nodes i / k⟩ ∧
    ∃ J : Matrix (Fin M) (Fin M) ℝ, getQD ext "JUMPER" (kwColl c) (some k) = .ok ⟨M, J⟩ ∧
      getQD ext "MIN-SR-FLEX" (kwColl c) (some k) = .ok ⟨M, (2 : ℝ) • J⟩ := by
  have hty : c.nodeType = nt ∧ c.quadType = qt := by
    obtain ⟨g, hg, h⟩ := bind_ok hc
    obtain ⟨x, hx, h⟩ := bind_ok h
    obtain ⟨x', hx', h⟩ := bind_ok h
    obtain ⟨L, hL, h⟩ := bind_ok h
    obtain ⟨Q, hQ, h⟩ := bind_ok h
    obtain ⟨w, hw, h⟩ := bind_ok h
    cases h
    exact ⟨rfl, rfl⟩
  have h1 : getQD ext "MIN-SR-FLEX" (kwColl c) (some k) =
      .ok ⟨M, Matrix.diagonal fun i => c.nodes i / k⟩ := by
    change (do
      let g ← (do
        let c' ← Collocation.new M c.nodeType c.quadType
        return ({ size := M, kDependent := true
                  compute := computeMINSRFLEX ext M c.nodeType c.quadType c'.nodes
                  shared := fun k => k.getD 1 > M, dTau := 0 } : QDeltaGen) : PyResult QDeltaGen)
      let A ← g.getQDelta (some k)
      return (⟨g.size, A⟩ : Σ n, Matrix (Fin n) (Fin n) ℝ)) = _
    rw [hty.1, hty.2, hc]
    simp only [bind, Except.bind, pure, Except.pure, QDeltaGen.getQDelta, computeMINSRFLEX,
      checkK_pos hk, if_pos hkM]
  refine ⟨h1, _, (C48_node_based ext c.nodes k hk none).2.1, ?_⟩
  rw [h1]
  congr 2
  ext i j
  by_cases h : i = j
  · subst h
    simp only [Matrix.diagonal_apply_eq, Matrix.smul_apply, smul_eq_mul]
    field_simp
  · simp [h]

/-- Instance: the third of five sweeps. -/
example (ext : ExternalNum) : ∃ c : Collocation 5, Collocation.new 5 "LEGENDRE" "RADAU-RIGHT" = .ok c ∧
    getQD ext "MIN-SR-FLEX" (kwColl c) (some 3) = .ok ⟨5, Matrix.diagonal fun i => c.nodes i / (3 : ℤ)⟩ := by
  obtain ⟨c, hc⟩ := collocation_new_ok (M := 5) (nt := "LEGENDRE") (qt := "RADAU-RIGHT") (by decide)
    (by decide) ⟨by decide, by decide⟩ 0 1
  exact ⟨c, hc, (C48_flex ext c hc 3 (by norm_num) (by norm_num)).1⟩

/-- C48: closed forms of the `Q`-based coefficients: `PIC = 0`, `Exact = Q`, `QPar` keeps the diagonal
of `Q`, `GS` its lower triangle. -/
theorem C48_Q_based (ext : ExternalNum) {n : ℕ} (Q : Matrix (Fin n) (Fin n) ℝ) (k : Option ℤ) :
    getQD ext "PIC" (kwQ Q) k = .ok ⟨n, 0⟩ ∧ getQD ext "Exact" (kwQ Q) k = .ok ⟨n, Q⟩ ∧
    (∃ A : Matrix (Fin n) (Fin n) ℝ, getQD ext "QPar" (kwQ Q) k = .ok ⟨n, A⟩ ∧
      ∀ i j, A i j = if i = j then Q i j else 0) ∧
    (∃ A : Matrix (Fin n) (Fin n) ℝ, getQD ext "GS" (kwQ Q) k = .ok ⟨n, A⟩ ∧
      ∀ i j, A i j = if j ≤ i then Q i j else 0) := by
  refine ⟨rfl, rfl, ⟨_, rfl, fun i j => ?_⟩, ⟨_, rfl, fun i j => rfl⟩⟩
  by_cases h : i = j
  · subst h; simp [computeQPar]
  · simp [computeQPar, h]

/-- Instance: a matrix of size two. -/
example (ext : ExternalNum) : ∃ A : Matrix (Fin 2) (Fin 2) ℝ,
    getQD ext "GS" (kwQ !![5 / 12, -1 / 12; 3 / 4, 1 / 4]) none = .ok ⟨2, A⟩ ∧ A 0 1 = 0 ∧ A 1 0 = 3 / 4 := by
  obtain ⟨-, -, -, A, h, hA⟩ := C48_Q_based ext !![5 / 12, -1 / 12; 3 / 4, 1 / 4] none
  exact ⟨A, h, by rw [hA]; simp, by rw [hA]; simp⟩

/-! ## C49 -/

/-- The value stored for a node type, a quadrature type and a size. -/
def TableEntry (t : MinCoeffs.Table) (nt qt : String) (n : ℕ) (cs : List ℚ) : Prop :=
  ∃ t1 t2, (nt, t1) ∈ t ∧ (qt, t2) ∈ t1 ∧ (n, cs) ∈ t2

/-- Distinct keys at every level, and as many coefficients as nodes. -/
def tableWF (t : MinCoeffs.Table) : Bool :=
  (t.map Prod.fst).Nodup && t.all fun p => (p.2.map Prod.fst).Nodup &&
    p.2.all fun q => (q.2.map Prod.fst).Nodup && q.2.all fun r => r.2.length == r.1

theorem lookup_eq_some_iff {α β : Type} [DecidableEq α] {l : List (α × β)}
    (h : (l.map Prod.fst).Nodup) {a : α} {b : β} : l.lookup a = some b ↔ (a, b) ∈ l := by
  induction l with
  | nil => simp
  | cons p l ih =>
    obtain ⟨a', b'⟩ := p
    rw [List.map_cons, List.nodup_cons] at h
    rw [List.lookup_cons]
    by_cases ha : a = a'
    · subst ha
      simp only [BEq.rfl, Option.some.injEq, List.mem_cons, Prod.mk.injEq, true_and]
      constructor
      · rintro rfl; exact Or.inl rfl
      · rintro (rfl | hm)
        · rfl
        · exact absurd (List.mem_map.mpr ⟨_, hm, rfl⟩) h.1
    · rw [beq_false_of_ne ha]
      simp [ha, ih h.2]

/-- C49: for the tables shipped with the package, a tabulated combination gives the diagonal matrix of
the stored coefficients, and every other combination raises `NotImplementedError`. -/
theorem C49_tables (table : MinCoeffs.Table) (htable : table = MinCoeffs.MIN3 ∨ table = MinCoeffs.MIN_VDHS)
    (nt qt : String) (n : ℕ) :
    (∀ cs, TableEntry table nt qt n cs → ∃ h : cs.length = n,
      computeFromTable table n nt qt = .ok (Matrix.diagonal fun i => ((cs.get (Fin.cast h.symm i) : ℚ) : ℝ))) ∧
    ((¬ ∃ cs, TableEntry table nt qt n cs) →
      computeFromTable table n nt qt = .error .notImplementedError) := by
  have hwf : tableWF table = true := by
    rcases htable with rfl | rfl <;> decide +kernel
  simp only [tableWF, Bool.and_eq_true, decide_eq_true_eq, List.all_eq_true, beq_iff_eq] at hwf
  obtain ⟨h1, h2⟩ := hwf
  constructor
  · rintro cs ⟨t1, t2, m1, m2, m3⟩
    obtain ⟨h3, h4⟩ := h2 _ m1
    obtain ⟨h5, h6⟩ := h4 _ m2
    have hl := h6 _ m3
    simp only at hl
    refine ⟨hl, ?_⟩
    simp [computeFromTable, tableLookup, (lookup_eq_some_iff h1).mpr m1,
      (lookup_eq_some_iff h3).mpr m2, (lookup_eq_some_iff h5).mpr m3, hl]
  · intro hno
    unfold computeFromTable tableLookup
    cases e1 : table.lookup nt with
    | none => rfl
    | some t1 =>
      have m1 := (lookup_eq_some_iff h1).mp e1
      obtain ⟨h3, h4⟩ := h2 _ m1
      cases e2 : t1.lookup qt with
      | none => simp [e2]
      | some t2 =>
        have m2 := (lookup_eq_some_iff h3).mp e2
        obtain ⟨h5, h6⟩ := h4 _ m2
        cases e3 : t2.lookup n with
        | none => simp [e2, e3]
        | some cs => exact absurd ⟨cs, t1, t2, m1, m2, (lookup_eq_some_iff h5).mp e3⟩ hno

/-- Instance: the tabulated coefficients of two Lobatto nodes. -/
example : ∃ A, computeFromTable MinCoeffs.MIN3 2 "LEGENDRE" "LOBATTO" = .ok A :=
  let ⟨_, h⟩ := (C49_tables MinCoeffs.MIN3 (Or.inl rfl) "LEGENDRE" "LOBATTO" 2).1 [0, 1 / 2]
    ⟨_, _, List.mem_cons_self, List.mem_cons_self, by decide +kernel⟩
  ⟨_, h⟩

/-- C49: the registered names use these tables, for every sweep, with parameters given explicitly or
taken from a `Collocation`. -/
theorem C49_generators (ext : ExternalNum) {n : ℕ} (c : Collocation n) (k : Option ℤ) :
    (getQD ext "MIN3" (kwColl c) k = do
      let A ← computeFromTable MinCoeffs.MIN3 n c.nodeType c.quadType
      return ⟨n, A⟩) ∧
    (getQD ext "VDHS" (kwColl c) k = do
      let A ← computeFromTable MinCoeffs.MIN_VDHS n c.nodeType c.quadType
      return ⟨n, A⟩) := ⟨rfl, rfl⟩

/-- A tabulated and a non-tabulated combination. -/
example : TableEntry MinCoeffs.MIN3 "LEGENDRE" "LOBATTO" 2 [0, 1 / 2] ∧
    ¬ ∃ cs, TableEntry MinCoeffs.MIN3 "LEGENDRE" "GAUSS" 2 cs := by
  constructor
  · exact ⟨_, _, List.mem_cons_self, List.mem_cons_self, by decide +kernel⟩
  · rintro ⟨cs, t1, t2, m1, m2, m3⟩
    have h : ∀ p ∈ MinCoeffs.MIN3, ∀ q ∈ p.2, q.1 ≠ "GAUSS" := by decide +kernel
    exact h _ m1 _ m2 rfl

/-! ## C50 -/

theorem checkK_none : checkK none = checkK (some 1) := rfl

theorem checkK_neg {k : ℤ} (hk : k < 1) : checkK (some k) = .error .valueError := by
  simp [checkK, hk]

/-- C50: exactly `MIN_SR_FLEX`, `Jumper` and `FlexJumper` depend on the sweep index; for them no index
means the first sweep, and an index smaller than `1` raises `ValueError`.  The coefficients of the other
classes are the same for every index. -/
theorem C50_sweep_index (ext : ExternalNum) (C : QDClass) (hC : C ∈ qDeltaClasses ext)
    (args : List PyVal) (params : PyDict PyVal) (g : QDeltaGen) (hg : C.call args params = .ok g) :
    (g.kDependent = true ↔ C.name ∈ ["MIN_SR_FLEX", "Jumper", "FlexJumper"]) ∧
    (g.kDependent = true → g.getQDelta none = g.getQDelta (some 1) ∧
      ∀ k : ℤ, k < 1 → g.getQDelta (some k) = .error .valueError) ∧
    (g.kDependent = false → ∀ k, g.getQDelta k = g.getQDelta none) := by
  obtain ⟨d, hd, hg⟩ := bind_ok hg
  simp only [qDeltaClasses, List.mem_cons, List.not_mem_nil, or_false] at hC
  rcases hC with rfl | rfl | rfl | rfl | rfl | rfl | rfl | rfl | rfl | rfl | rfl | rfl | rfl | rfl |
    rfl | rfl | rfl | rfl | rfl | rfl | rfl | rfl | rfl | rfl | rfl | rfl
  all_goals try (
    obtain ⟨n, Q, -, rfl⟩ := classQ_init hg
    exact ⟨by simp [classQ], by simp, fun _ _ => rfl⟩)
  all_goals try (
    obtain ⟨n, nt, qt, -, -, -, rfl⟩ := classTable_init hg
    exact ⟨by simp [classTable], by simp, fun _ _ => rfl⟩)
  all_goals try (
    obtain ⟨n, v, tl, t, -, -, -, rfl⟩ := classTime_init hg
    exact ⟨by simp [classTime], by simp, fun _ _ => rfl⟩)
  · obtain ⟨n, v, -, rfl⟩ := classNodes_init hg
    exact ⟨by simp [classNodes], by simp, fun _ _ => rfl⟩
  · obtain ⟨n, nt, qt, c, -, -, -, -, rfl⟩ := classMINSRS_init hg
    exact ⟨by simp [classMINSRS], by simp, fun _ _ => rfl⟩
  · obtain ⟨n, nt, qt, c, -, -, -, -, rfl⟩ := classMINSRFLEX_init hg
    refine ⟨by simp [classMINSRFLEX], fun _ => ⟨rfl, fun k hk => ?_⟩, by simp⟩
    simp [QDeltaGen.getQDelta, computeMINSRFLEX, checkK_neg hk, bind, Except.bind]
  · obtain ⟨n, v, -, rfl⟩ := classNodes_init hg
    refine ⟨by simp [classNodes], fun _ => ⟨rfl, fun k hk => ?_⟩, by simp⟩
    simp [QDeltaGen.getQDelta, computeJumper, checkK_neg hk, bind, Except.bind]
  · obtain ⟨n, v, -, rfl⟩ := classNodes_init hg
    refine ⟨by simp [classNodes], fun _ => ⟨rfl, fun k hk => ?_⟩, by simp⟩
    simp [QDeltaGen.getQDelta, computeFlexJumper, checkK_neg hk, bind, Except.bind]
  all_goals
    obtain ⟨n, v, -, rfl⟩ := classNodes_init hg
    exact ⟨by simp [classNodes], by simp, fun _ _ => rfl⟩

/-- A `Jumper` object. -/
example (ext : ExternalNum) : ∃ C ∈ qDeltaClasses ext, ∃ g,
    C.call [.array 2 ![1 / 3, 1]] (fun _ => none) = .ok g ∧ g.kDependent = true :=
  ⟨classNodes "Jumper" ["JUMPER", "FB"] true fun v k => computeJumper v k, by simp [qDeltaClasses],
    _, rfl, rfl⟩

end QMat
