import Mathlib.Data.Real.Basic

/-!
# Previous entry of a sequence
-/

namespace QMat.Spec

/-- Entry before position `m` of the sequence `v 0, v 1, ...` extended by `x` on the left. -/
def prev {M : ℕ} {α : Type*} (x : α) (v : Fin M → α) (m : Fin M) : α :=
  if (m : ℕ) = 0 then x else v ⟨m - 1, lt_of_le_of_lt (Nat.sub_le _ _) m.isLt⟩

end QMat.Spec
