import Verif.Model.Tables
import Verif.Lemmas.Butcher

/-!
# Checks over the list of all registered Runge-Kutta tables

Each is a computation in exact arithmetic (`decide +kernel`, evaluated by the kernel).
-/

namespace QMat

open Matrix Spec

/-- Accuracy of the coefficients of the tables that are given by truncated decimals or by 13-digit
fractions; all others are exact. -/
def tableAccuracy (name : String) : ℚ :=
  if name = "SDIRK3" then 4 / 10 ^ 16
  else if name ∈ ["ARK343ESDIRK", "ARK343ERK"] then 2 / 10 ^ 10
  else if name ∈ ["ESDIRK43", "ESDIRK53", "ARK548L2SAERK", "ARK548L2SAESDIRK", "ARK548L2SAESDIRK2",
    "ARK548L2SAERK2", "ARK324L2SAERK", "ARK324L2SAESDIRK"] then 4 / 10 ^ 26
  else 0

theorem tables_shape : ∀ T ∈ Tables.rkSchemes, (T.d = 2 ∨ T.d = 3) ∧ T.shapesOk = true ∧
    (∀ b2, T.b2 = some b2 → b2.length = T.c.length) ∧ 0 < T.order ∧ T.order ≤ 5 := by
  have : (Tables.rkSchemes.all fun T => decide (T.d = 2 ∨ T.d = 3) && T.shapesOk &&
      (match T.b2 with | none => true | some b2 => decide (b2.length = T.c.length)) &&
      decide (0 < T.order ∧ T.order ≤ 5)) = true := by
    decide +kernel
  intro T hT
  have := List.all_eq_true.mp this T hT
  simp only [Bool.and_eq_true, decide_eq_true_eq] at this
  refine ⟨this.1.1.1, this.1.1.2, fun b2 hb => ?_, this.2⟩
  have h := this.1.2
  rw [hb] at h
  simpa using h

theorem tables_linear : ∀ T ∈ Tables.rkSchemes, T.linOk T.b T.order (tableAccuracy T.name) = true := by
  have : (Tables.rkSchemes.all fun T => T.linOk T.b T.order (tableAccuracy T.name)) = true := by
    decide +kernel
  exact fun T hT => List.all_eq_true.mp this T hT

theorem tables_linear_bad : ∀ T ∈ Tables.rkSchemes, T.linBad T.b T.order (1 / 10 ^ 4) = true := by
  have : (Tables.rkSchemes.all fun T => T.linBad T.b T.order (1 / 10 ^ 4)) = true := by
    decide +kernel
  exact fun T hT => List.all_eq_true.mp this T hT

theorem tables_embedded : ∀ T ∈ Tables.rkSchemes, T.name ≠ "ARK548L2SAESDIRK" → ∀ b2, T.b2 = some b2 →
    T.treeOk b2 T.orderEmbedded (tableAccuracy T.name) = true := by
  have : (Tables.rkSchemes.all fun T => decide (T.name = "ARK548L2SAESDIRK") ||
      (match T.b2 with
        | none => true
        | some b2 => T.treeOk b2 T.orderEmbedded (tableAccuracy T.name))) = true := by
    decide +kernel
  intro T hT hn b2 hb
  have := List.all_eq_true.mp this T hT
  rw [hb] at this
  simpa [hn] using this

theorem tables_tree : ∀ T ∈ Tables.rkSchemes, T.name ∉ ["RK32", "ARK343ERK"] →
    T.treeOk T.b T.order (tableAccuracy T.name) = true := by
  have : (Tables.rkSchemes.all fun T => decide (T.name ∈ ["RK32", "ARK343ERK"]) ||
      T.treeOk T.b T.order (tableAccuracy T.name)) = true := by
    decide +kernel
  intro T hT hn
  have := List.all_eq_true.mp this T hT
  simpa [hn] using this

theorem tables_rows : ∀ T ∈ Tables.rkSchemes, T.name ≠ "RK53" →
    T.rowSumOk (tableAccuracy T.name) = true := by
  have : (Tables.rkSchemes.all fun T => decide (T.name = "RK53") ||
      T.rowSumOk (tableAccuracy T.name)) = true := by
    decide +kernel
  intro T hT hn
  have := List.all_eq_true.mp this T hT
  simpa [hn] using this

end QMat
