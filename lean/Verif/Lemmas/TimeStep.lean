import Verif.Model.QDelta
import Mathlib.Tactic.Ring
import Mathlib.Tactic.Linarith
import Mathlib.Tactic.FieldSimp

/-!
# Entries of the time-stepping `QDelta` matrices
-/

namespace QMat

open Matrix

theorem foldl_addSubDiag {M : ℕ} (v : ℕ → ℝ) (l : List ℕ) (hl : l.Nodup)
    (QD : Matrix (Fin M) (Fin M) ℝ) (r c : Fin M) :
    l.foldl (fun QD i => addSubDiag i v QD) QD r c =
      QD r c + if ∃ i ∈ l, (r : ℕ) = i + c then v c else 0 := by
  induction l generalizing QD with
  | nil => simp
  | cons a l ih =>
    rw [List.foldl_cons, ih (List.nodup_cons.mp hl).2]
    have ha := (List.nodup_cons.mp hl).1
    simp only [addSubDiag, Matrix.of_apply, List.exists_mem_cons_iff]
    by_cases h1 : (r : ℕ) = a + c
    · have h2 : ¬ ∃ i ∈ l, (r : ℕ) = i + c := by
        rintro ⟨i, hi, h⟩
        have : i = a := by omega
        exact ha (this ▸ hi)
      simp only [h1, true_or, if_true]
      rw [if_neg (by rw [h1] at h2; exact h2), add_zero]
    · simp [h1]

namespace TimeStepping

variable {M : ℕ} (g : TimeStepping M)

theorem loopBE_apply (QD : Matrix (Fin M) (Fin M) ℝ) (r c : Fin M) :
    g.loopBE QD r c = QD r c + if c ≤ r then g.deltas c else 0 := by
  unfold loopBE
  rw [foldl_addSubDiag _ _ List.nodup_range]
  have : (∃ i ∈ List.range M, (r : ℕ) = i + c) ↔ c ≤ r := by
    constructor
    · rintro ⟨i, -, h⟩
      exact Fin.le_def.mpr (by omega)
    · intro h
      have := Fin.le_def.mp h
      exact ⟨r - c, by simp; omega, by omega⟩
  rw [if_congr this rfl rfl]
  simp [atPos]

theorem loopFE_apply (QD : Matrix (Fin M) (Fin M) ℝ) (r c : Fin M) :
    g.loopFE QD r c = QD r c + if c < r then atPos g.deltas (c + 1) else 0 := by
  unfold loopFE
  rw [foldl_addSubDiag _ _ List.nodup_range']
  have : (∃ i ∈ List.range' 1 (M - 1), (r : ℕ) = i + c) ↔ c < r := by
    constructor
    · rintro ⟨i, hi, h⟩
      simp only [List.mem_range'_1] at hi
      exact Fin.lt_def.mpr (by omega)
    · intro h
      have := Fin.lt_def.mp h
      exact ⟨r - c, by simp only [List.mem_range'_1]; omega, by omega⟩
  rw [if_congr this rfl rfl, Nat.add_comm]

theorem computeBE_apply (r c : Fin M) : g.computeBE r c = if c ≤ r then g.deltas c else 0 := by
  simp [computeBE, loopBE_apply]

theorem computeFE_apply (r c : Fin M) :
    g.computeFE r c = if c < r then atPos g.deltas (c + 1) else 0 := by
  simp [computeFE, loopFE_apply]

theorem computeTRAP_eq (r c : Fin M) :
    g.computeTRAP r c = (g.computeBE r c + g.computeFE r c) / 2 := by
  simp [computeTRAP, loopFE_apply, loopBE_apply, computeBE_apply, computeFE_apply]

/-- `new` succeeds exactly when there is a node. -/
theorem new_ok {nodes : Fin M → ℝ} {tLeft : ℝ} (hg : TimeStepping.new nodes tLeft = .ok g) :
    0 < M ∧ g.nodes = nodes ∧ g.tLeft = tLeft ∧
    (∀ i : Fin M, g.deltas i = nodes i -
      if _h : (i : ℕ) = 0 then tLeft else nodes ⟨i - 1, by omega⟩) := by
  unfold TimeStepping.new at hg
  split_ifs at hg with h
  cases hg
  refine ⟨h, rfl, rfl, fun i => ?_⟩
  by_cases hi : (i : ℕ) = 0 <;> simp [hi]

end TimeStepping

/-- Sum over a `Fin` prefix as a range sum of positions. -/
theorem sum_le_atPos {M : ℕ} (f : Fin M → ℝ) (m : Fin M) :
    ∑ j, (if j ≤ m then f j else 0) = ∑ j ∈ Finset.range (m + 1), atPos f j := by
  rw [← Finset.sum_filter]
  refine Finset.sum_bij (fun j _ => (j : ℕ)) ?_ ?_ ?_ ?_
  · intro j hj
    have : j ≤ m := by simpa using hj
    have := Fin.le_def.mp this
    simp
    omega
  · intro a _ b _ h
    exact Fin.ext h
  · intro b hb
    have hb : b < m + 1 := by simpa using hb
    exact ⟨⟨b, by omega⟩, Finset.mem_filter.mpr ⟨Finset.mem_univ _, Fin.le_def.mpr (by simpa using Nat.lt_succ_iff.mp hb)⟩, rfl⟩
  · intro j _
    simp [atPos]

theorem sum_lt_atPos {M : ℕ} (f : Fin M → ℝ) (m : Fin M) :
    ∑ j, (if j < m then f j else 0) = ∑ j ∈ Finset.range m, atPos f j := by
  rw [← Finset.sum_filter]
  refine Finset.sum_bij (fun j _ => (j : ℕ)) ?_ ?_ ?_ ?_
  · intro j hj
    have : j < m := by simpa using hj
    have := Fin.lt_def.mp this
    simpa
  · intro a _ b _ h
    exact Fin.ext h
  · intro b hb
    have hb : b < m := by simpa using hb
    exact ⟨⟨b, by omega⟩, Finset.mem_filter.mpr ⟨Finset.mem_univ _, Fin.lt_def.mpr hb⟩, rfl⟩
  · intro j _
    simp [atPos]

end QMat
