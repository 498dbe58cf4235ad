import Verif.Props.Nilpotent
import Verif.Props.Registry

/-!
# C48: `MIN-SR-FLEX` after `M` sweeps, and the aliases
-/

namespace QMat

open Spec Matrix

/-- C48: after `M` sweeps `MIN-SR-FLEX` is `MIN-SR-S`, for every collocation, interval and solver (also when it fails). -/
theorem C48_flex_after (ext : ExternalNum) {M : ℕ} (c : Collocation M) (k : ℤ) (hk : 1 ≤ k) (hkM : M < k) (k' : Option ℤ) :
    getQD ext "MIN-SR-FLEX" (kwColl c) (some k) = getQD ext "MIN-SR-S" (kwColl c) k' := by
  rw [getQD_flex_coll, getQD_srs_coll]
  cases Collocation.new M c.nodeType c.quadType with
  | error e => rfl
  | ok c' =>
    simp only [bind, Except.bind, pure, Except.pure, QDeltaGen.getQDelta, computeMINSRFLEX, checkK_pos hk, if_neg (not_le.mpr hkM)]

/-- Instance: the sixth sweep with five nodes. -/
example (ext : ExternalNum) : ∃ c : Collocation 5, Collocation.new 5 "LEGENDRE" "RADAU-RIGHT" = .ok c ∧
    getQD ext "MIN-SR-FLEX" (kwColl c) (some 6) = getQD ext "MIN-SR-S" (kwColl c) none := by
  obtain ⟨c, hc⟩ := collocation_new_ok (M := 5) (nt := "LEGENDRE") (qt := "RADAU-RIGHT") (by decide)
    (by decide) ⟨by decide, by decide⟩ 0 1
  exact ⟨c, hc, C48_flex_after ext c 6 (by norm_num) (by norm_num) none⟩

/-- C48: the other names of the generators give the same coefficients and the same errors, whatever the parameters. -/
theorem C48_aliases (ext : ExternalNum) (params : PyDict PyVal) (k : Option ℤ) :
    ∀ p ∈ [("PIC", "Picard"), ("Exact", "EXACT"), ("QPar", "Qpar"), ("QPar", "Qdiag"), ("GS", "GaussSeidel"), ("MIN", "MIN-Speck"),
      ("MIN3", "Magic_Numbers"), ("VDHS", "MIN_VDHS"), ("MIN-SR-NS", "MIN_SR_NS"), ("MIN-SR-NS", "MIN_GT"), ("MIN-SR-S", "MIN_SR_S"),
      ("MIN-SR-FLEX", "MIN_SR_FLEX"), ("JUMPER", "Jumper"), ("JUMPER", "FB"), ("FLEX-JUMPER", "FlexJumper"), ("FLEX-JUMPER", "FB2"),
      ("DNODES-1", "DNODES"), ("DNODES-2", "DNODES2"), ("DNODES-3", "DNODES3"), ("DNODES-4", "DNODES4"), ("DNODES-5", "DNODES5"),
      ("BE", "IE"), ("FE", "EE"), ("TRAP", "CN"), ("BEPAR", "IEpar"), ("SOE", "LeapFrog"), ("SOE", "LF")],
    getQD ext p.1 params k = getQD ext p.2 params k ∧ ∃ c, QDELTA_GENERATORS ext p.1 = some c := by
  have key : ∀ a b : String, (∃ c ∈ qDeltaClasses ext, (a = c.name ∨ a ∈ c.aliases) ∧ (b = c.name ∨ b ∈ c.aliases)) →
      getQD ext a params k = getQD ext b params k ∧ ∃ c, QDELTA_GENERATORS ext a = some c := by
    rintro a b ⟨c, hc, ha, hb⟩
    have h1 := Registry.C65_qdelta_lookup ext c hc a ha
    have h2 := Registry.C65_qdelta_lookup ext c hc b hb
    refine ⟨?_, c, h1⟩
    unfold getQD makeQD lookupQDelta
    rw [h1, h2]
  have all : ∀ (l : List QDClass) (p : String × String), (l.any fun c => (decide (p.1 = c.name) || decide (p.1 ∈ c.aliases)) &&
      (decide (p.2 = c.name) || decide (p.2 ∈ c.aliases))) = true →
      ∃ c ∈ l, (p.1 = c.name ∨ p.1 ∈ c.aliases) ∧ (p.2 = c.name ∨ p.2 ∈ c.aliases) := by
    intro l p h
    simpa [List.any_eq_true] using h
  intro p hp
  refine key _ _ (all _ p ?_)
  revert p
  simp only [List.forall_mem_cons, List.not_mem_nil, false_implies, implies_true, and_true]
  refine ⟨?_, ?_, ?_, ?_, ?_, ?_, ?_, ?_, ?_, ?_, ?_, ?_, ?_, ?_, ?_, ?_, ?_, ?_, ?_, ?_, ?_, ?_, ?_, ?_, ?_, ?_, ?_⟩ <;> rfl

end QMat
