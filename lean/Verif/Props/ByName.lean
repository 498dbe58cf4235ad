import Verif.Props.TimeStep
import Verif.Props.LeapFrog
import Verif.Props.QDelta
import Verif.Props.QDeltaSweeps

/-!
# C38, C39, C54: time-stepping coefficients by name, with `dTau`
-/

namespace QMat

open Matrix Spec

/-- `nodes=nodes, tLeft=tLeft` as keyword arguments. -/
def kwTime {n : ℕ} (nodes : Fin n → ℝ) (tLeft : ℝ) : PyDict PyVal :=
  (PyDict.single "nodes" (.array n nodes)).update (PyDict.single "tLeft" (.real tLeft))

variable {M : ℕ}

theorem byName (ext : ExternalNum) (nodes : Fin M → ℝ) (tLeft : ℝ) (t : TimeStepping M)
    (ht : TimeStepping.new nodes tLeft = .ok t) {name : String} {nm : String} {al : List String}
    {compute : {M : ℕ} → TimeStepping M → PyResult (Matrix (Fin M) (Fin M) ℝ)}
    {dTau : {M : ℕ} → TimeStepping M → Fin M → ℝ}
    (hC : QDELTA_GENERATORS ext name = some (classTime nm al compute dTau)) {A : Matrix (Fin M) (Fin M) ℝ}
    (hA : compute t = .ok A) :
    (genQDeltaCoeffs ext (.str name) .none "Z2N" true (kwTime nodes tLeft)).2 =
      .ok { coeffs := .single M A, dTau := some ⟨M, dTau t⟩ } := by
  have hd : (classTime nm al compute dTau).call [] (kwTime nodes tLeft) =
      (TimeStepping.new nodes tLeft >>= fun g => pure
        ({ size := M, kDependent := false, compute := fun _ => compute g, shared := fun _ => false,
           dTau := dTau g } : QDeltaGen)) := rfl
  have hmk : makeQD ext name (kwTime nodes tLeft) =
      .ok { size := M, kDependent := false, compute := fun _ => compute t, shared := fun _ => false, dTau := dTau t } := by
    have hl : lookupQDelta ext name = .ok (classTime nm al compute dTau) := by
      unfold lookupQDelta
      rw [hC]
    unfold makeQD
    rw [hl]
    change (classTime nm al compute dTau).call [] (kwTime nodes tLeft) = _
    rw [hd, ht]
    rfl
  refine (C53_single ext name "Z2N" true _ (Or.inl rfl) _).mpr ⟨_, ?_, hmk, ?_, ?_⟩
  · exact A
  · exact hA
  · rfl

/-- C38 by name: with `θ = 1` for `BE`/`IE`, `0` for `FE`/`EE` and `1/2` for `TRAP`/`CN`, the coefficients and the
`dTau` returned by `genQDeltaCoeffs(name, dTau=True, nodes=nodes, tLeft=tLeft)` make
`v = QDelta f + dTau f(tLeft)` the result of the steps
`v_m = v_{m-1} + (τ_m - τ_{m-1}) ((1-θ) f_{m-1} + θ f_m)`, and `QDelta 1 + dTau = τ - tLeft`. -/
theorem C38_by_name (ext : ExternalNum) (nodes : Fin M → ℝ) (hM : 0 < M) (tLeft : ℝ) : ∀ p ∈ ([("BE", 1), ("IE", 1),
    ("FE", 0), ("EE", 0), ("TRAP", 1 / 2), ("CN", 1 / 2)] : List (String × ℝ)), ∃ (A : Matrix (Fin M) (Fin M) ℝ) (d : Fin M → ℝ),
    (genQDeltaCoeffs ext (.str p.1) .none "Z2N" true (kwTime nodes tLeft)).2 =
      .ok { coeffs := .single M A, dTau := some ⟨M, d⟩ } ∧
    (∀ (f : Fin M → ℝ) (f0 : ℝ) (m : Fin M), (A *ᵥ f) m + d m * f0 =
      prev 0 (fun m => (A *ᵥ f) m + d m * f0) m +
        (nodes m - prev tLeft nodes m) * ((1 - p.2) * prev f0 f m + p.2 * f m)) ∧
    ∀ m, ∑ j, A m j + d m = nodes m - tLeft := by
  obtain ⟨t, ht⟩ := (C38_constructor nodes tLeft).1.mpr hM
  have hsum := fun m => C39_row_sums nodes tLeft t ht m
  have hBE := fun f m => C38_backward_euler nodes tLeft t ht f m
  have hFE := fun f f0 m => C38_forward_euler nodes tLeft t ht f f0 m
  have hTR := fun f f0 m => C38_trapezoidal nodes tLeft t ht f f0 m
  intro p hp
  simp only [List.mem_cons, List.not_mem_nil, or_false] at hp
  rcases hp with rfl | rfl | rfl | rfl | rfl | rfl
  · refine ⟨_, _, byName ext nodes tLeft t ht rfl rfl, fun f f0 m => ?_, fun m => ?_⟩
    · simpa using hBE f m
    · simpa using (hsum m).1
  · refine ⟨_, _, byName ext nodes tLeft t ht rfl rfl, fun f f0 m => ?_, fun m => ?_⟩
    · simpa using hBE f m
    · simpa using (hsum m).1
  · refine ⟨_, _, byName ext nodes tLeft t ht rfl rfl, fun f f0 m => ?_, fun m => (hsum m).2.1⟩
    simpa using hFE f f0 m
  · refine ⟨_, _, byName ext nodes tLeft t ht rfl rfl, fun f f0 m => ?_, fun m => (hsum m).2.1⟩
    simpa using hFE f f0 m
  · refine ⟨_, _, byName ext nodes tLeft t ht rfl rfl, fun f f0 m => ?_, fun m => (hsum m).2.2⟩
    refine (hTR f f0 m).trans ?_
    ring
  · refine ⟨_, _, byName ext nodes tLeft t ht rfl rfl, fun f f0 m => ?_, fun m => (hsum m).2.2⟩
    refine (hTR f f0 m).trans ?_
    ring

/-- The hypotheses are met. -/
example (ext : ExternalNum) : ∃ (A : Matrix (Fin 2) (Fin 2) ℝ) (d : Fin 2 → ℝ),
    (genQDeltaCoeffs ext (.str "EE") .none "Z2N" true (kwTime ![1, 3] (1 / 2))).2 =
      .ok { coeffs := .single 2 A, dTau := some ⟨2, d⟩ } ∧ ∑ j, A 1 j + d 1 = 5 / 2 := by
  obtain ⟨A, d, h1, -, h2⟩ := C38_by_name ext ![1, 3] (by norm_num) (1 / 2) ("EE", 0) (by simp)
  refine ⟨A, d, h1, (h2 1).trans ?_⟩
  norm_num

/-- C39: `dTau` is zero except for `FE`, `TRAP`, `TRAPAR` and `SOE`. -/
theorem C39_dTau_zero (ext : ExternalNum) (C : QDClass) (hC : C ∈ qDeltaClasses ext)
    (hname : C.name ∉ ["FE", "TRAP", "TRAPAR", "SOE"])
    (args : List PyVal) (params : PyDict PyVal) (g : QDeltaGen) (hg : C.call args params = .ok g) : g.dTau = 0 := by
  obtain ⟨d, hd, hg⟩ := bind_ok hg
  simp only [qDeltaClasses, List.mem_cons, List.not_mem_nil, or_false] at hC
  rcases hC with rfl | rfl | rfl | rfl | rfl | rfl | rfl | rfl | rfl | rfl | rfl | rfl | rfl | rfl |
    rfl | rfl | rfl | rfl | rfl | rfl | rfl | rfl | rfl | rfl | rfl | rfl
  all_goals try (
    obtain ⟨n, Q, -, rfl⟩ := classQ_init hg
    rfl)
  all_goals try (
    obtain ⟨n, nt, qt, -, -, -, rfl⟩ := classTable_init hg
    rfl)
  all_goals try (
    obtain ⟨n, v, tl, t, -, -, -, rfl⟩ := classTime_init hg
    first | rfl | exact absurd hname (by simp [classTime]))
  all_goals try (
    obtain ⟨n, nt, qt, c, -, -, -, -, rfl⟩ := classMINSRS_init hg
    rfl)
  all_goals try (
    obtain ⟨n, nt, qt, c, -, -, -, -, rfl⟩ := classMINSRFLEX_init hg
    rfl)
  all_goals
    obtain ⟨n, v, -, rfl⟩ := classNodes_init hg
    rfl

/-- Instance: backward Euler from `1/2`. -/
example (ext : ExternalNum) : ∃ C ∈ qDeltaClasses ext, C.name = "BE" ∧ ∃ g,
    C.call [] (kwTime ![1, 3] (1 / 2)) = .ok g ∧ g.dTau = 0 := by
  refine ⟨classTime "BE" ["IE"] (fun g => .ok g.computeBE) fun _ => 0, by simp [qDeltaClasses], rfl, _, rfl, ?_⟩
  exact C39_dTau_zero ext (classTime "BE" ["IE"] (fun g => .ok g.computeBE) fun _ => 0) (by simp [qDeltaClasses])
    (by decide) [] (kwTime ![1, 3] (1 / 2)) _ rfl

/-- C39: parallel steps with left bound 0: `BEPAR` and `TRAPAR` by name step from 0 to each node,
`v_m = τ_m ((1-θ) f(0) + θ f_m)`. -/
theorem C39_parallel_by_name (ext : ExternalNum) (nodes : Fin M → ℝ) (hM : 0 < M) : ∀ p ∈ ([("BEPAR", 1), ("IEpar", 1),
    ("TRAPAR", 1 / 2)] : List (String × ℝ)), ∃ (A : Matrix (Fin M) (Fin M) ℝ) (d : Fin M → ℝ),
    (genQDeltaCoeffs ext (.str p.1) .none "Z2N" true (kwTime nodes 0)).2 =
      .ok { coeffs := .single M A, dTau := some ⟨M, d⟩ } ∧
    ∀ (f : Fin M → ℝ) (f0 : ℝ) (m : Fin M), (A *ᵥ f) m + d m * f0 = nodes m * ((1 - p.2) * f0 + p.2 * f m) := by
  obtain ⟨t, ht⟩ := (C38_constructor nodes 0).1.mpr hM
  have hn : t.nodes = nodes ∧ t.tLeft = 0 := by
    unfold TimeStepping.new at ht
    rw [if_pos hM] at ht
    cases ht
    exact ⟨rfl, rfl⟩
  have h1 : t.computeBEPAR = diagonal nodes := by
    ext i j; simp [TimeStepping.computeBEPAR, hn]
  have h2 : t.computeTRAPAR = diagonal fun i => nodes i / 2 := by
    ext i j; simp [TimeStepping.computeTRAPAR, hn]
  intro p hp
  simp only [List.mem_cons, List.not_mem_nil, or_false] at hp
  rcases hp with rfl | rfl | rfl
  · refine ⟨_, _, byName ext nodes 0 t ht rfl rfl, fun f f0 m => ?_⟩
    rw [h1, mulVec_diagonal]
    simp
  · refine ⟨_, _, byName ext nodes 0 t ht rfl rfl, fun f f0 m => ?_⟩
    rw [h1, mulVec_diagonal]
    simp
  · refine ⟨_, _, byName ext nodes 0 t ht rfl rfl, fun f f0 m => ?_⟩
    rw [h2, mulVec_diagonal]
    simp [TimeStepping.dTauTRAPAR, hn]
    ring

/-- Instance: the parallel trapezoidal rule with two nodes. -/
example (ext : ExternalNum) := C39_parallel_by_name ext ![1, 3] (by norm_num) ("TRAPAR", 1 / 2) (by simp)

/-- C54 by name: `SOE`, `LeapFrog` and `LF` return the leap-frog coefficients and the distance of the first node from
`tLeft` as `dTau`. -/
theorem C54_by_name (ext : ExternalNum) (nodes : Fin M → ℝ) (hM : 0 < M) (tLeft : ℝ) (t : TimeStepping M)
    (ht : TimeStepping.new nodes tLeft = .ok t) (A : Matrix (Fin M) (Fin M) ℝ) (hA : t.computeSOE = .ok A) :
    ∀ name ∈ ["SOE", "LeapFrog", "LF"],
      (genQDeltaCoeffs ext (.str name) .none "Z2N" true (kwTime nodes tLeft)).2 =
        .ok { coeffs := .single M A, dTau := some ⟨M, fun _ => nodes ⟨0, hM⟩ - tLeft⟩ } := by
  have hd : t.dTauFE = fun _ => nodes ⟨0, hM⟩ - tLeft := by
    funext m
    rw [TimeStepping.dTauFE, mul_zero, zero_add, atPos, dif_pos hM, deltas_eq ht]
    simp [prev]
  intro name hname
  simp only [List.mem_cons, List.not_mem_nil, or_false] at hname
  rw [← hd]
  rcases hname with rfl | rfl | rfl <;> exact byName ext nodes tLeft t ht rfl hA

/-- Instance: two nodes, the first of which is the left bound. -/
example (ext : ExternalNum) : ∃ (t : TimeStepping 2) (A : Matrix (Fin 2) (Fin 2) ℝ),
    TimeStepping.new ![(0:ℝ), 1] 0 = .ok t ∧ t.computeSOE = .ok A ∧
    ∃ out, (genQDeltaCoeffs ext (.str "LF") .none "Z2N" true (kwTime ![0, 1] 0)).2 = .ok out := by
  obtain ⟨t, ht⟩ : ∃ t, TimeStepping.new ![(0:ℝ), 1] 0 = .ok t := ⟨_, rfl⟩
  obtain ⟨A, hA, -⟩ := C54_leapfrog ![(0:ℝ), 1] (Fin.strictMono_iff_lt_succ.mpr fun i => by fin_cases i; simp)
    (fun i => by fin_cases i <;> norm_num) 0 t ht
  exact ⟨t, A, ht, hA, _, C54_by_name ext ![0, 1] (by norm_num) 0 t ht A hA "LF" (by simp)⟩

end QMat
