import Verif.Model.IntNodes
import Verif.Lemmas.TimeStep
import Verif.Props.TimeStep
import Mathlib.Algebra.Order.Floor.Ring
import Mathlib.Tactic.Linarith

/-!
# C98: `QDelta` coefficients based on time-stepping, for nodes given as integers
-/

namespace QMat

open Matrix Spec

variable {M : ℕ}

/-- An integer is stored as it is; the others are moved toward zero, by less than one. -/
theorem truncInt_intCast (k : ℤ) : truncInt (k : ℝ) = k := by
  unfold truncInt; split_ifs <;> simp

theorem truncInt_eq_iff (x : ℝ) : (truncInt x : ℝ) = x ↔ ∃ k : ℤ, x = k :=
  ⟨fun h => ⟨_, h.symm⟩, fun ⟨k, h⟩ => by rw [h, truncInt_intCast]⟩

theorem truncInt_between (x : ℝ) :
    (0 ≤ x → 0 ≤ (truncInt x : ℝ) ∧ (truncInt x : ℝ) ≤ x) ∧
    (x ≤ 0 → x ≤ (truncInt x : ℝ) ∧ (truncInt x : ℝ) ≤ 0) ∧ |(truncInt x : ℝ) - x| < 1 := by
  unfold truncInt
  have h1 := Int.floor_le x
  have h2 := Int.lt_floor_add_one x
  have h3 := Int.le_ceil x
  have h4 := Int.ceil_lt_add_one x
  refine ⟨fun h => ?_, fun h => ?_, ?_⟩
  · rw [if_pos h]
    exact ⟨by exact_mod_cast Int.floor_nonneg.mpr h, h1⟩
  · split_ifs with h0
    · have : x = 0 := le_antisymm h h0
      subst this
      simp
    · exact ⟨h3, by exact_mod_cast Int.ceil_nonpos.mpr h⟩
  · split_ifs with h0
    · rw [abs_lt]; constructor <;> linarith
    · rw [abs_lt]; constructor <;> linarith

/-- **C98**: integer nodes give the object of the same nodes given as floats when `tLeft` is an
integer (in particular for the default `0`). -/
theorem C98_same (nodes : Fin M → ℤ) (tLeft : ℤ) :
    TimeStepping.newInt nodes tLeft = TimeStepping.new (fun i => (nodes i : ℝ)) tLeft := by
  unfold TimeStepping.newInt TimeStepping.new
  split_ifs with h
  · congr 2
    funext i
    split_ifs with hi
    · rw [← Int.cast_sub, truncInt_intCast]
    · push_cast; rfl
  · rfl

example : TimeStepping.newInt ![1, 2, 4] ((-1 : ℤ) : ℝ) =
    TimeStepping.new (fun i => ((![1, 2, 4] : Fin 3 → ℤ) i : ℝ)) ((-1 : ℤ) : ℝ) := C98_same _ _

/-- Both constructors succeed exactly when there is a node. -/
theorem newInt_ok {nodes : Fin M → ℤ} {tLeft : ℝ} {g : TimeStepping M}
    (hg : TimeStepping.newInt nodes tLeft = .ok g) :
    0 < M ∧ g.nodes = (fun i => (nodes i : ℝ)) ∧ g.tLeft = tLeft ∧
    (∀ i : Fin M, g.deltas i = if _h : (i : ℕ) = 0 then (truncInt (nodes i - tLeft) : ℝ)
      else nodes i - nodes ⟨i - 1, by omega⟩) := by
  unfold TimeStepping.newInt at hg
  split_ifs at hg with h
  cases hg
  refine ⟨h, rfl, rfl, fun i => ?_⟩
  by_cases hi : (i : ℕ) = 0 <;> simp [hi]

/-- **C98**: for any `tLeft`, the coefficients that are built from the differences are those of float
nodes for another left bound, between `tLeft` and the first node, and less than one from `tLeft`. -/
theorem C98_left {nodes : Fin M → ℤ} {tLeft : ℝ} {g : TimeStepping M}
    (hg : TimeStepping.newInt nodes tLeft = .ok g) (h0 : 0 < M) :
    ∃ (t : ℝ) (g' : TimeStepping M), TimeStepping.new (fun i => (nodes i : ℝ)) t = .ok g' ∧
      t ∈ Set.uIcc tLeft (nodes ⟨0, h0⟩) ∧ |t - tLeft| < 1 ∧
      (∃ k : ℤ, (nodes ⟨0, h0⟩ : ℝ) - t = k) ∧
      g.computeBE = g'.computeBE ∧ g.computeFE = g'.computeFE ∧ g.computeTRAP = g'.computeTRAP ∧
      g.dTauFE = g'.dTauFE ∧ g.dTauTRAP = g'.dTauTRAP := by
  set x : ℝ := nodes ⟨0, h0⟩ - tLeft with hx
  obtain ⟨hp, hn, ha⟩ := truncInt_between x
  obtain ⟨g', hg'⟩ : ∃ g', TimeStepping.new (fun i => (nodes i : ℝ))
      (nodes ⟨0, h0⟩ - truncInt x) = .ok g' := by
    unfold TimeStepping.new; rw [if_pos h0]; exact ⟨_, rfl⟩
  obtain ⟨-, n1, -, d1⟩ := newInt_ok hg
  obtain ⟨-, n2, -, d2⟩ := g'.new_ok hg'
  have hd : g.deltas = g'.deltas := by
    funext i
    rw [d1, d2]
    split_ifs with hi
    · have : i = ⟨0, h0⟩ := Fin.ext hi
      subst this
      simp [hx]
    · rfl
  have hn' : g.nodes = g'.nodes := n1.trans n2.symm
  refine ⟨_, g', hg', ?_, ?_, ⟨truncInt x, by ring⟩, ?_, ?_, ?_, ?_, ?_⟩
  · rcases le_total 0 x with h | h
    · obtain ⟨a, b⟩ := hp h
      rw [Set.uIcc_of_le (by linarith)]
      constructor <;> linarith
    · obtain ⟨a, b⟩ := hn h
      rw [Set.uIcc_of_ge (by linarith)]
      constructor <;> linarith
  · rw [show (nodes ⟨0, h0⟩ : ℝ) - truncInt x - tLeft = -(truncInt x - x) by rw [hx]; ring, abs_neg]
    exact ha
  · ext r c; rw [g.computeBE_apply, g'.computeBE_apply, hd]
  · ext r c; rw [g.computeFE_apply, g'.computeFE_apply, hd]
  · ext r c
    rw [g.computeTRAP_eq, g'.computeTRAP_eq, g.computeBE_apply, g'.computeBE_apply,
      g.computeFE_apply, g'.computeFE_apply, hd]
  · funext i; simp [TimeStepping.dTauFE, hd]
  · funext i; simp [TimeStepping.dTauTRAP, hd]

/-- **C98**: compared with the same nodes given as floats, the matrices of `FE`, `BEPAR`, `TRAPAR`,
`SOE` and `dTau` of `TRAPAR` are always the same; those of `BE` and `TRAP`, and `dTau` of `FE`,
`SOE` and `TRAP` are the same if and only if the first node minus `tLeft` is an integer. -/
theorem C98_iff {nodes : Fin M → ℤ} {tLeft : ℝ} {g g' : TimeStepping M}
    (hg : TimeStepping.newInt nodes tLeft = .ok g)
    (hg' : TimeStepping.new (fun i => (nodes i : ℝ)) tLeft = .ok g') (h0 : 0 < M) :
    (g.computeFE = g'.computeFE ∧ g.computeBEPAR = g'.computeBEPAR ∧
      g.computeTRAPAR = g'.computeTRAPAR ∧ g.dTauTRAPAR = g'.dTauTRAPAR ∧
      g.computeSOE = g'.computeSOE) ∧
    (g.computeBE = g'.computeBE ↔ ∃ k : ℤ, (nodes ⟨0, h0⟩ : ℝ) - tLeft = k) ∧
    (g.computeTRAP = g'.computeTRAP ↔ ∃ k : ℤ, (nodes ⟨0, h0⟩ : ℝ) - tLeft = k) ∧
    (g.dTauFE = g'.dTauFE ↔ ∃ k : ℤ, (nodes ⟨0, h0⟩ : ℝ) - tLeft = k) ∧
    (g.dTauTRAP = g'.dTauTRAP ↔ ∃ k : ℤ, (nodes ⟨0, h0⟩ : ℝ) - tLeft = k) := by
  obtain ⟨-, n1, t1, d1⟩ := newInt_ok hg
  obtain ⟨-, n2, t2, d2⟩ := g'.new_ok hg'
  have hn : g.nodes = g'.nodes := n1.trans n2.symm
  have ht : g.tLeft = g'.tLeft := t1.trans t2.symm
  have hs : ∀ i : Fin M, (i : ℕ) ≠ 0 → g.deltas i = g'.deltas i := fun i hi => by
    rw [d1, d2, dif_neg hi, dif_neg hi]
  have e1 : g.deltas ⟨0, h0⟩ = truncInt (nodes ⟨0, h0⟩ - tLeft) := by rw [d1]; simp
  have e2 : g'.deltas ⟨0, h0⟩ = nodes ⟨0, h0⟩ - tLeft := by rw [d2]; simp
  have key : g.deltas ⟨0, h0⟩ = g'.deltas ⟨0, h0⟩ ↔ ∃ k : ℤ, (nodes ⟨0, h0⟩ : ℝ) - tLeft = k := by
    rw [e1, e2, truncInt_eq_iff]
  have all : g.deltas ⟨0, h0⟩ = g'.deltas ⟨0, h0⟩ → g.deltas = g'.deltas := fun h => by
    funext i
    by_cases hi : (i : ℕ) = 0
    · have : i = ⟨0, h0⟩ := Fin.ext hi
      rw [this, h]
    · exact hs i hi
  have fe : g.computeFE = g'.computeFE := by
    ext r c
    rw [g.computeFE_apply, g'.computeFE_apply]
    split_ifs with h
    · unfold atPos
      split_ifs
      · exact hs _ (by simp)
      · rfl
    · rfl
  have hsoe : ∀ i, g.soeTimes i = g'.soeTimes i := fun i => by
    cases i <;> simp [TimeStepping.soeTimes, hn]
  refine ⟨⟨fe, ?_, ?_, ?_, ?_⟩, ?_, ?_, ?_, ?_⟩
  · simp [TimeStepping.computeBEPAR, hn, ht]
  · simp [TimeStepping.computeTRAPAR, hn, ht]
  · funext i; simp [TimeStepping.dTauTRAPAR, hn, ht]
  · have ha : g.soeAlpha = g'.soeAlpha := by
      funext i; simp only [TimeStepping.soeAlpha, hsoe]
    simp only [TimeStepping.computeSOE, ha]
  · rw [← key]
    refine ⟨fun h => ?_, fun h => ?_⟩
    · have := congrFun (congrFun h ⟨0, h0⟩) ⟨0, h0⟩
      rwa [g.computeBE_apply, g'.computeBE_apply, if_pos le_rfl, if_pos le_rfl] at this
    · ext r c; rw [g.computeBE_apply, g'.computeBE_apply, all h]
  · rw [← key]
    refine ⟨fun h => ?_, fun h => ?_⟩
    · have := congrFun (congrFun h ⟨0, h0⟩) ⟨0, h0⟩
      rw [g.computeTRAP_eq, g'.computeTRAP_eq, fe, g.computeBE_apply, g'.computeBE_apply,
        if_pos le_rfl, if_pos le_rfl] at this
      linarith
    · ext r c
      rw [g.computeTRAP_eq, g'.computeTRAP_eq, fe, g.computeBE_apply, g'.computeBE_apply, all h]
  · rw [← key]
    refine ⟨fun h => ?_, fun h => ?_⟩
    · have := congrFun h ⟨0, h0⟩
      simpa [TimeStepping.dTauFE, atPos, h0] using this
    · funext i; simp [TimeStepping.dTauFE, all h]
  · rw [← key]
    refine ⟨fun h => ?_, fun h => ?_⟩
    · have := congrFun h ⟨0, h0⟩
      simpa [TimeStepping.dTauTRAP, atPos, h0] using this
    · funext i; simp [TimeStepping.dTauTRAP, all h]

/-- Nodes `1, 2, 3` and `tLeft = 1/2`: the hypotheses hold and the matrices of `BE` differ. -/
example : ∃ g g' : TimeStepping 3, TimeStepping.newInt ![1, 2, 3] (1 / 2) = .ok g ∧
    TimeStepping.new (fun i => ((![1, 2, 3] : Fin 3 → ℤ) i : ℝ)) (1 / 2) = .ok g' ∧
    g.computeBE ≠ g'.computeBE ∧ g.computeFE = g'.computeFE := by
  refine ⟨_, _, rfl, rfl, ?_, ?_⟩
  · intro h
    obtain ⟨k, hk⟩ := (C98_iff (g := _) (g' := _) rfl rfl (by norm_num)).2.1.mp h
    have : (2 * k : ℝ) = 1 := by rw [← hk]; norm_num
    have : (2 * k : ℤ) = 1 := by exact_mod_cast this
    omega
  · exact (C98_iff (g := _) (g' := _) rfl rfl (by norm_num)).1.1

/-- FALSE for integer nodes and a fractional `tLeft`: the rows of the `BE` matrix sum up to the
nodes minus `tLeft` (C39).  For the nodes `1, 2, 3` and `tLeft = 1/2` the first step has length `0`
instead of `1/2`, and the matrix is singular. -/
theorem C98_rows_fails : ∃ g : TimeStepping 3, TimeStepping.newInt ![1, 2, 3] (1 / 2) = .ok g ∧
    (∀ m, ∑ j, g.computeBE m j ≠ ((![1, 2, 3] : Fin 3 → ℤ) m : ℝ) - 1 / 2) ∧
    g.computeBE.det = 0 := by
  have t : truncInt (1 / 2 : ℝ) = 0 := by
    unfold truncInt
    rw [if_pos (by norm_num), Int.floor_eq_zero_iff]
    constructor <;> norm_num
  refine ⟨_, rfl, fun m => ?_, ?_⟩
  · simp only [Fin.sum_univ_three, TimeStepping.computeBE_apply]
    fin_cases m <;> simp <;> norm_num [t]
  · rw [Matrix.det_fin_three]
    simp only [TimeStepping.computeBE_apply]
    simp
    norm_num [t]

end QMat
