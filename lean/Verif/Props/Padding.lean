import Verif.Lemmas.Padding
import Verif.Props.Butcher

/-!
# C36: padded Runge-Kutta schemes
-/

namespace QMat

open Matrix Spec

/-- Two generators with the same determinants and stability functions give the same results. -/
theorem solveDahlquist_congr {M M' : ℕ} (g : QGenerator M) (g' : QGenerator M')
    (hdet : ∀ z : ℂ, (1 - z • g'.Q.map Complex.ofReal).det = (1 - z • g.Q.map Complex.ofReal).det)
    (hstab : ∀ z : ℂ, (1 - z • g.Q.map Complex.ofReal).det ≠ 0 →
      stabilityFunction g'.Q g'.weights z = stabilityFunction g.Q g.weights z)
    (lam u0 : ℂ) (tEnd : ℝ) (n : ℤ) :
    g'.solveDahlquist lam u0 tEnd n = g.solveDahlquist lam u0 tEnd n := by
  by_cases hn : 0 < n
  · obtain ⟨m, rfl⟩ : ∃ m : ℕ, n = m := ⟨n.toNat, by omega⟩
    have hm : 0 < m := by exact_mod_cast hn
    by_cases hd : (1 - (lam * ((tEnd / m : ℝ) : ℂ)) • g.Q.map Complex.ofReal).det = 0
    · rw [(C30_solveDahlquist_errors g lam u0 tEnd).1 m hm hd,
        (C30_solveDahlquist_errors g' lam u0 tEnd).1 m hm (by rw [hdet]; exact hd)]
    · rw [C30_solveDahlquist g lam u0 tEnd m hm hd,
        C30_solveDahlquist g' lam u0 tEnd m hm (by rw [hdet]; exact hd), hstab _ hd]
  · simp only [QGenerator.solveDahlquist, Bool.false_eq_true, if_false, bind, Except.bind, pure,
      Except.pure]
    by_cases h1 : n + 1 < 0
    · rw [if_pos h1, if_pos h1]; rfl
    · by_cases h2 : n + 1 = 0
      · rw [if_neg h1, if_pos h2, if_neg h1, if_pos h2]; rfl
      · have h3 : n = 0 := by omega
        rw [if_neg h1, if_neg h2, if_pos h3, if_neg h1, if_neg h2, if_pos h3]; rfl

namespace RK

theorem padLeft_solve_aux {s : ℕ} (g : QGenerator s) (g' : QGenerator (s + 1))
    (hQ : g'.Q = padLeftA g.Q) (hw : g'.weights = Fin.cons 0 g.weights)
    (lam u0 : ℂ) (tEnd : ℝ) (n : ℤ) :
    g'.solveDahlquist lam u0 tEnd n = g.solveDahlquist lam u0 tEnd n :=
  solveDahlquist_congr _ _ (fun z => by rw [hQ]; exact padLeft_det g.Q z)
    (fun z h => by rw [hQ, hw]; exact padLeft_stab g.Q g.weights z h) _ _ _ _

theorem padRight_solve_aux {s : ℕ} (g : QGenerator s) (g' : QGenerator (s + 1))
    (hQ : g'.Q = padRightA g.Q g.weights) (hw : g'.weights = Fin.snoc g.weights 0)
    (lam u0 : ℂ) (tEnd : ℝ) (n : ℤ) :
    g'.solveDahlquist lam u0 tEnd n = g.solveDahlquist lam u0 tEnd n :=
  solveDahlquist_congr _ _ (fun z => by rw [hQ]; exact padRight_det g.Q g.weights z)
    (fun z h => by rw [hQ, hw]; exact padRight_stab g.Q g.weights z h) _ _ _ _

theorem padLeft_solve (g : RK) (lam u0 : ℂ) (tEnd : ℝ) (n : ℤ) :
    g.padLeft.toQGenerator.solveDahlquist lam u0 tEnd n =
      g.toQGenerator.solveDahlquist lam u0 tEnd n :=
  padLeft_solve_aux g.toQGenerator g.padLeft.toQGenerator rfl rfl lam u0 tEnd n

theorem padRight_solve (g : RK) (lam u0 : ℂ) (tEnd : ℝ) (n : ℤ) :
    g.padRight.toQGenerator.solveDahlquist lam u0 tEnd n =
      g.toQGenerator.solveDahlquist lam u0 tEnd n :=
  padRight_solve_aux g.toQGenerator g.padRight.toQGenerator rfl rfl lam u0 tEnd n

theorem init_cases (g g' : RK) (padding : Option String) (h : g.init padding = .ok g') :
    (g' = g ∧ (padding = none ∨ padding = some "")) ∨ (g' = g.padLeft ∧ padding = some "LEFT") ∨
    (g' = g.padRight ∧ padding = some "RIGHT") ∨
    (g' = g.padLeft.padRight ∧ padding = some "BOTH") := by
  unfold init at h
  cases padding with
  | none => left; cases h; exact ⟨rfl, Or.inl rfl⟩
  | some p =>
    simp only at h
    by_cases h0 : p = ""
    · rw [if_pos h0] at h; left; cases h; exact ⟨rfl, Or.inr (by rw [h0])⟩
    · rw [if_neg h0] at h
      by_cases h1 : p ∈ ["LEFT", "RIGHT", "BOTH"]
      · rw [if_neg (not_not.mpr h1)] at h
        simp only [List.mem_cons, List.not_mem_nil, or_false] at h1
        right
        rcases h1 with rfl | rfl | rfl
        · left; simp at h; exact ⟨h.symm, rfl⟩
        · right; left; simp at h; exact ⟨h.symm, rfl⟩
        · right; right; simp at h; exact ⟨h.symm, rfl⟩
      · rw [if_pos h1] at h; cases h

end RK

/-- C36: a scheme constructed with any padding gives the same values (or the same error) in
`solveDahlquist` and `errorDahlquist` as the unpadded one. -/
theorem C36_padding_same_results (g g' : RK) (padding : Option String) (h : g.init padding = .ok g')
    (lam u0 : ℂ) (tEnd : ℝ) (n : ℤ) :
    g'.toQGenerator.solveDahlquist lam u0 tEnd n = g.toQGenerator.solveDahlquist lam u0 tEnd n ∧
    g'.toQGenerator.errorDahlquist lam u0 tEnd n = g.toQGenerator.errorDahlquist lam u0 tEnd n := by
  have key : g'.toQGenerator.solveDahlquist lam u0 tEnd n =
      g.toQGenerator.solveDahlquist lam u0 tEnd n := by
    rcases RK.init_cases g g' padding h with ⟨rfl, -⟩ | ⟨rfl, -⟩ | ⟨rfl, -⟩ | ⟨rfl, -⟩
    · rfl
    · exact RK.padLeft_solve g _ _ _ _
    · exact RK.padRight_solve g _ _ _ _
    · rw [RK.padRight_solve, RK.padLeft_solve]
  refine ⟨key, ?_⟩
  simp only [QGenerator.errorDahlquist, key]

/-- Instance: RK4 with a stage added on both sides. -/
example : ∃ g', Tables.tRK4.toRK.init (some "BOTH") = .ok g' ∧
    g'.toQGenerator.solveDahlquist (-1) 1 2 3 = Tables.tRK4.toRK.toQGenerator.solveDahlquist (-1) 1 2 3 := by
  obtain ⟨g', h⟩ : ∃ g', Tables.tRK4.toRK.init (some "BOTH") = .ok g' := ⟨_, by simp [RK.init]; rfl⟩
  exact ⟨g', h, (C36_padding_same_results _ g' _ h (-1) 1 2 3).1⟩

/-- C36: the accepted paddings, with the number of nodes and the end nodes they give; anything else is
an `AssertionError`. -/
theorem C36_padding_nodes (g : RK) :
    (∃ g', g.init (some "LEFT") = .ok g' ∧ g'.s = g.s + 1 ∧
      (List.ofFn g'.toQGenerator.nodes) = 0 :: List.ofFn g.c) ∧
    (∃ g', g.init (some "RIGHT") = .ok g' ∧ g'.s = g.s + 1 ∧
      (List.ofFn g'.toQGenerator.nodes) = List.ofFn g.c ++ [1]) ∧
    (∃ g', g.init (some "BOTH") = .ok g' ∧ g'.s = g.s + 2 ∧
      (List.ofFn g'.toQGenerator.nodes) = 0 :: List.ofFn g.c ++ [1]) ∧
    (∀ p : String, p ∉ ["", "LEFT", "RIGHT", "BOTH"] → g.init (some p) = .error .assertionError) := by
  have hL : ∀ g : RK, List.ofFn g.padLeft.c = 0 :: List.ofFn g.c := fun g => by
    change List.ofFn (Fin.cons 0 g.c : Fin (g.s + 1) → ℝ) = _
    rw [List.ofFn_succ]
    simp
  have hR : ∀ g : RK, List.ofFn g.padRight.c = List.ofFn g.c ++ [1] := fun g => by
    change List.ofFn (Fin.snoc g.c 1 : Fin (g.s + 1) → ℝ) = _
    rw [List.ofFn_succ']
    simp
  refine ⟨⟨g.padLeft, by simp [RK.init], rfl, hL g⟩, ⟨g.padRight, by simp [RK.init], rfl, hR g⟩,
    ⟨g.padLeft.padRight, by simp [RK.init], rfl, ?_⟩, fun p hp => ?_⟩
  · change List.ofFn g.padLeft.padRight.c = _
    rw [hR, hL]
  · simp only [List.mem_cons, not_or, List.not_mem_nil, not_false_eq_true, and_true] at hp
    simp [RK.init, hp]

/-- Instance: RK4. -/
example : ∃ g', Tables.tRK4.toRK.init (some "BOTH") = .ok g' ∧ g'.s = 6 := by
  obtain ⟨g', h, h', -⟩ := (C36_padding_nodes Tables.tRK4.toRK).2.2.1
  exact ⟨g', h, h'⟩

/-- C36: padding keeps `c = A 1`, on the right because `Σ b = 1`. -/
theorem C36_padding_row_sums (g g' : RK) (padding : Option String) (h : g.init padding = .ok g')
    (hc : ∀ i, ∑ j, g.A i j = g.c i) (hb : ∑ j, g.b j = 1) (i : Fin g'.s) :
    ∑ j, g'.A i j = g'.c i := by
  have hL : ∀ g : RK, (∀ i, ∑ j, g.A i j = g.c i) → ∀ i, ∑ j, g.padLeft.A i j = g.padLeft.c i := by
    intro g hc i
    change ∑ j : Fin (g.s + 1), RK.padLeftA g.A i j = (Fin.cons 0 g.c : Fin (g.s + 1) → ℝ) i
    rw [Fin.sum_univ_succ]
    refine Fin.cases ?_ (fun i => ?_) i
    · simp [RK.padLeftA]
    · simpa [RK.padLeftA] using hc i
  have hR : ∀ g : RK, (∀ i, ∑ j, g.A i j = g.c i) → ∑ j, g.b j = 1 →
      ∀ i, ∑ j, g.padRight.A i j = g.padRight.c i := by
    intro g hc hb i
    change ∑ j : Fin (g.s + 1), RK.padRightA g.A g.b i j = (Fin.snoc g.c 1 : Fin (g.s + 1) → ℝ) i
    rw [Fin.sum_univ_castSucc]
    refine Fin.lastCases ?_ (fun i => ?_) i
    · simpa [RK.padRightA] using hb
    · simpa [RK.padRightA] using hc i
  rcases RK.init_cases g g' padding h with ⟨rfl, -⟩ | ⟨rfl, -⟩ | ⟨rfl, -⟩ | ⟨rfl, -⟩
  · exact hc i
  · exact hL g hc i
  · exact hR g hc hb i
  · refine hR g.padLeft (hL g hc) ?_ i
    change ∑ j : Fin (g.s + 1), (Fin.cons 0 g.b : Fin (g.s + 1) → ℝ) j = 1
    rw [Fin.sum_univ_succ]
    simpa using hb

/-- Instance: backward Euler, written out. -/
example : ∃ g', RK.init { s := 1, A := !![1], b := ![1], c := ![1], b2 := none }
      (some "BOTH") = .ok g' ∧ ∀ i, ∑ j, g'.A i j = g'.c i := by
  obtain ⟨g', h⟩ : ∃ g', RK.init { s := 1, A := !![1], b := ![1], c := ![1], b2 := none }
    (some "BOTH") = .ok g' := ⟨_, by simp [RK.init]; rfl⟩
  exact ⟨g', h, C36_padding_row_sums _ g' _ h (fun (i : Fin 1) => by fin_cases i; simp) (by simp)⟩

/-- C36: with a node at `1` the last stage is the new solution: `rightIsNode` holds after right
padding. -/
theorem C36_padding_rightIsNode (g g' : RK) (padding : String) (hp : padding ∈ ["RIGHT", "BOTH"])
    (h : g.init (some padding) = .ok g') : ∃ P, g'.toQGenerator.rightIsNode = .ok P ∧ P := by
  have hR : ∀ g : RK, ∃ P, g.padRight.toQGenerator.rightIsNode = .ok P ∧ P := by
    intro g
    have h0 : 0 < g.padRight.s := Nat.succ_pos _
    refine ⟨_, by rw [QGenerator.rightIsNode, dif_pos h0], ?_⟩
    change (Fin.snoc g.c 1 : Fin (g.s + 1) → ℝ) (Fin.last g.s) = 1
    simp
  rcases RK.init_cases g g' _ h with ⟨-, h'⟩ | ⟨-, h'⟩ | ⟨rfl, -⟩ | ⟨rfl, -⟩
  · rcases h' with h' | h'
    · cases h'
    · cases h'; simp at hp
  · cases h'; simp at hp
  · exact hR _
  · exact hR _

/-- Instance: backward Euler with a stage on the right. -/
example : ∃ g' P, Tables.tBE.toRK.init (some "RIGHT") = .ok g' ∧ g'.toQGenerator.rightIsNode = .ok P ∧ P := by
  obtain ⟨g', h⟩ : ∃ g', Tables.tBE.toRK.init (some "RIGHT") = .ok g' := ⟨_, by simp [RK.init]; rfl⟩
  obtain ⟨P, hP⟩ := C36_padding_rightIsNode _ g' "RIGHT" (by decide) h
  exact ⟨g', P, h, hP⟩

/-- C36, finding: the embedded weights are not padded, so that a padded scheme with embedded weights
cannot use them, neither in `solveDahlquist` nor in `genCoeffs`. -/
theorem C36_padding_embedded_fails (g g' : RK) (padding : String)
    (hp : padding ∈ ["LEFT", "RIGHT", "BOTH"]) (h : g.init (some padding) = .ok g')
    (w : Fin g.s → ℝ) (hb2 : g.b2 = some ⟨g.s, w⟩) :
    (∀ (lam u0 : ℂ) (tEnd : ℝ) (n : ℤ),
      ∃ e, g'.toQGenerator.solveDahlquist lam u0 tEnd n true = .error e) ∧
    ∃ e, g'.toQGenerator.genCoeffs "Z2N" false true = .error e := by
  have hlt : g'.b2 = some ⟨g.s, w⟩ ∧ g.s < g'.s := by
    rcases RK.init_cases g g' _ h with ⟨-, h'⟩ | ⟨rfl, -⟩ | ⟨rfl, -⟩ | ⟨rfl, -⟩
    · rcases h' with h' | h'
      · cases h'
      · cases h'; simp at hp
    · exact ⟨hb2, Nat.lt_succ_self _⟩
    · exact ⟨hb2, Nat.lt_succ_self _⟩
    · exact ⟨hb2, Nat.lt_succ_of_lt (Nat.lt_succ_self _)⟩
  have hwe : g'.toQGenerator.weightsEmbedded = .ok ⟨g.s, w⟩ := by
    simp only [RK.toQGenerator, hlt.1]
  refine ⟨fun lam u0 tEnd n => ?_, ?_⟩
  · exact (C30_solveDahlquist_errors g'.toQGenerator lam u0 tEnd).2.2.2 ⟨g.s, w⟩ hwe (by
      exact hlt.2.ne) n
  · refine ⟨.valueError, ?_⟩
    simp only [QGenerator.genCoeffs, if_true, hwe, bind, Except.bind, pure, Except.pure, npVstackSnd,
      dif_neg hlt.2.ne]

/-- The classical scheme, padded on both sides. -/
example : ∃ g', Tables.tRK4.toRK.init (some "BOTH") = .ok g' ∧ g'.s = 6 ∧
    (∀ i, |∑ j, Tables.tRK4.toRK.A i j - Tables.tRK4.toRK.c i| ≤ (0 : ℝ)) :=
  ⟨_, by simp [RK.init]; rfl, rfl, fun i => by
    have := C34_row_sums Tables.tRK4 (by simp [Tables.rkSchemes]) (by decide) i
    simpa [show tableAccuracy Tables.tRK4.name = 0 by decide] using this⟩

/-- A scheme with embedded weights, as in `C36_padding_embedded_fails`. -/
example : ∃ w : Fin Tables.tHEUN2.toRK.s → ℝ, Tables.tHEUN2.toRK.b2 = some ⟨Tables.tHEUN2.toRK.s, w⟩ :=
  ⟨fun i => ((Tables.tHEUN2.b2.getD []).getD i 0).toReal, rfl⟩

end QMat
