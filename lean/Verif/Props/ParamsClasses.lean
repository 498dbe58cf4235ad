import Verif.Props.ByName

/-!
# C55 for the registered classes
-/

namespace QMat

open Matrix

/-- The registered classes built from `Q`, from `nodes`, and from the number and types of nodes. -/
def algebraicNames : List String := ["PIC", "Exact", "LU", "LU2", "QPar", "GS", "LDU", "MIN"]

/-- See `algebraicNames`. -/
def nodeNames : List String := ["MIN_SR_NS", "Jumper", "FlexJumper", "DNODES", "DNODES2", "DNODES3", "DNODES4", "DNODES5", "BE", "FE",
  "TRAP", "BEPAR", "TRAPAR", "SOE"]

/-- See `algebraicNames`. -/
def collNames : List String := ["MIN3", "MIN_VDHS", "MIN_SR_S", "MIN_SR_FLEX"]

/-- C55: every registered class is of one of three kinds; without parameters its constructor raises `TypeError`. -/
theorem C55_missing (ext : ExternalNum) : ∀ c ∈ qDeltaClasses ext,
    c.name ∈ algebraicNames ++ nodeNames ++ collNames ∧ c.call [] (fun _ => none) = .error .typeError := by
  simp only [qDeltaClasses, List.mem_cons, List.not_mem_nil, or_false, forall_eq_or_imp, forall_eq]
  refine ⟨?_, ?_, ?_, ?_, ?_, ?_, ?_, ?_, ?_, ?_, ?_, ?_, ?_, ?_, ?_, ?_, ?_, ?_, ?_, ?_, ?_, ?_, ?_, ?_, ?_, ?_⟩
  all_goals exact ⟨by dsimp only [classQ, classMINSRS, classMINSRFLEX, classTime, classNodes, classTable]; decide, rfl⟩

/-- C55: any `Q`-generator `g` other than a `Collocation` given as `qGen` stands for `Q=g.Q` or `nodes=g.nodes`; classes that need
the types of the nodes refuse it. -/
theorem C55_qGen_other (ext : ExternalNum) {M : ℕ} (g : QGenerator M) : ∀ c ∈ qDeltaClasses ext,
    (c.name ∈ algebraicNames → c.call [] (PyDict.single "qGen" (.qgen (.other M g))) =
      c.call [] (PyDict.single "Q" (.matrix M g.Q))) ∧
    (c.name ∈ nodeNames → c.call [] (PyDict.single "qGen" (.qgen (.other M g))) =
      c.call [] (PyDict.single "nodes" (.array M g.nodes))) ∧
    (c.name ∈ collNames → c.call [] (PyDict.single "qGen" (.qgen (.other M g))) = .error .assertionError) := by
  simp only [qDeltaClasses, List.mem_cons, List.not_mem_nil, or_false, forall_eq_or_imp, forall_eq]
  refine ⟨?_, ?_, ?_, ?_, ?_, ?_, ?_, ?_, ?_, ?_, ?_, ?_, ?_, ?_, ?_, ?_, ?_, ?_, ?_, ?_, ?_, ?_, ?_, ?_, ?_, ?_⟩
  all_goals
    refine ⟨fun h => ?_, fun h => ?_, fun h => ?_⟩
    all_goals first | rfl | exact absurd h (by dsimp only [classQ, classMINSRS, classMINSRFLEX, classTime, classNodes, classTable]; decide)

/-- C55: a `Collocation` object given as `qGen` stands for its `Q`, its nodes, or the number and types of its nodes. -/
theorem C55_qGen_coll (ext : ExternalNum) {M : ℕ} (g : Collocation M) : ∀ c ∈ qDeltaClasses ext,
    (c.name ∈ algebraicNames → c.call [] (PyDict.single "qGen" (.qgen (.coll M g))) =
      c.call [] (PyDict.single "Q" (.matrix M g.Q))) ∧
    (c.name ∈ nodeNames → c.call [] (PyDict.single "qGen" (.qgen (.coll M g))) =
      c.call [] (PyDict.single "nodes" (.array M g.nodes))) ∧
    (c.name ∈ collNames → c.call [] (PyDict.single "qGen" (.qgen (.coll M g))) =
      c.call [] (((PyDict.single "nNodes" (.int M)).update (PyDict.single "nodeType" (.str g.nodeType))).update
        (PyDict.single "quadType" (.str g.quadType)))) := by
  simp only [qDeltaClasses, List.mem_cons, List.not_mem_nil, or_false, forall_eq_or_imp, forall_eq]
  refine ⟨?_, ?_, ?_, ?_, ?_, ?_, ?_, ?_, ?_, ?_, ?_, ?_, ?_, ?_, ?_, ?_, ?_, ?_, ?_, ?_, ?_, ?_, ?_, ?_, ?_, ?_⟩
  all_goals
    refine ⟨fun h => ?_, fun h => ?_, fun h => ?_⟩
    all_goals first | rfl | exact absurd h (by dsimp only [classQ, classMINSRS, classMINSRFLEX, classTime, classNodes, classTable]; decide)

/-- C55: positional arguments are `Q`, or `nodes` (then `tLeft` for the time stepping classes), or `nNodes, nodeType, quadType`. -/
theorem C55_positional (ext : ExternalNum) {M : ℕ} (Q : Matrix (Fin M) (Fin M) ℝ) (nodes : Fin M → ℝ) (tLeft : ℝ) (nt qt : String) :
    ∀ c ∈ qDeltaClasses ext,
    (c.name ∈ algebraicNames → c.call [.matrix M Q] (fun _ => none) = c.call [] (PyDict.single "Q" (.matrix M Q))) ∧
    (c.name ∈ nodeNames → c.call [.array M nodes] (fun _ => none) = c.call [] (PyDict.single "nodes" (.array M nodes))) ∧
    (c.name ∈ ["BE", "FE", "TRAP", "BEPAR", "TRAPAR", "SOE"] → c.call [.array M nodes, .real tLeft] (fun _ => none) =
      c.call [] (kwTime nodes tLeft)) ∧
    (c.name ∈ collNames → c.call [.int M, .str nt, .str qt] (fun _ => none) =
      c.call [] (((PyDict.single "nNodes" (.int M)).update (PyDict.single "nodeType" (.str nt))).update
        (PyDict.single "quadType" (.str qt)))) := by
  simp only [qDeltaClasses, List.mem_cons, List.not_mem_nil, or_false, forall_eq_or_imp, forall_eq]
  refine ⟨?_, ?_, ?_, ?_, ?_, ?_, ?_, ?_, ?_, ?_, ?_, ?_, ?_, ?_, ?_, ?_, ?_, ?_, ?_, ?_, ?_, ?_, ?_, ?_, ?_, ?_⟩
  all_goals
    refine ⟨fun h => ?_, fun h => ?_, fun h => ?_, fun h => ?_⟩
    all_goals first | rfl | exact absurd h (by dsimp only [classQ, classMINSRS, classMINSRFLEX, classTime, classNodes, classTable]; decide)

/-- C39 (finding): with a left bound the rows of `TRAPAR` and its `dTau` do not sum to the lengths of the steps: `tLeft` is
subtracted from every entry of the matrix. -/
theorem C39_trapar_tLeft_fails (ext : ExternalNum) {M : ℕ} (nodes : Fin M → ℝ) (hM : 0 < M) (tLeft : ℝ) :
    ∃ (A : Matrix (Fin M) (Fin M) ℝ) (d : Fin M → ℝ),
    (genQDeltaCoeffs ext (.str "TRAPAR") .none "Z2N" true (kwTime nodes tLeft)).2 =
      .ok { coeffs := .single M A, dTau := some ⟨M, d⟩ } ∧
    (∀ m, ∑ j, A m j + d m = nodes m - (M + 1) * tLeft) ∧ (tLeft ≠ 0 → ∀ m, ∑ j, A m j + d m ≠ nodes m - tLeft) := by
  obtain ⟨t, ht⟩ := (C38_constructor nodes tLeft).1.mpr hM
  have hn : t.nodes = nodes ∧ t.tLeft = tLeft := by
    unfold TimeStepping.new at ht
    rw [if_pos hM] at ht
    cases ht
    exact ⟨rfl, rfl⟩
  have h : ∀ m, ∑ j, t.computeTRAPAR m j + t.dTauTRAPAR m = nodes m - (M + 1) * tLeft := by
    intro m
    simp only [TimeStepping.computeTRAPAR, TimeStepping.dTauTRAPAR, hn, Matrix.of_apply, Finset.sum_sub_distrib]
    simp [Matrix.diagonal_apply]
    ring
  refine ⟨_, _, byName ext nodes tLeft t ht rfl rfl, h, fun h0 m he => h0 ?_⟩
  rw [h m] at he
  have hM' : (0 : ℝ) < M := by exact_mod_cast hM
  have : (M : ℝ) * tLeft = 0 := by linarith
  rcases mul_eq_zero.1 this with h | h
  · exact absurd h hM'.ne'
  · exact h

/-- Instances of `C55_missing`, `C55_positional`, `C55_qGen_other`, `C55_qGen_coll`: the class `BE`. -/
example (ext : ExternalNum) {M : ℕ} (g : QGenerator M) (c : Collocation M) : ∃ C ∈ qDeltaClasses ext, C.name = "BE" ∧
    C.call [] (fun _ => none) = .error .typeError ∧
    C.call [.array M g.nodes, .real 2] (fun _ => none) = C.call [] (kwTime g.nodes 2) ∧
    C.call [] (PyDict.single "qGen" (.qgen (.other M g))) = C.call [] (PyDict.single "nodes" (.array M g.nodes)) ∧
    C.call [] (PyDict.single "qGen" (.qgen (.coll M c))) = C.call [] (PyDict.single "nodes" (.array M c.nodes)) := by
  have hC : classTime "BE" ["IE"] (fun g => .ok g.computeBE) (fun _ => 0) ∈ qDeltaClasses ext := by simp [qDeltaClasses]
  exact ⟨_, hC, rfl, (C55_missing ext _ hC).2,
    (C55_positional ext g.Q g.nodes 2 "" "" _ hC).2.2.1 (by decide), (C55_qGen_other ext g _ hC).2.1 (by decide),
    (C55_qGen_coll ext c _ hC).2.1 (by decide)⟩

end QMat
