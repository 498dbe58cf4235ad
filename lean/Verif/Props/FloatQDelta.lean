import Verif.Lemmas.FloatQDelta
import Verif.Lemmas.FloatSDC
import Verif.Props.ByName
import Verif.Lemmas.RoundingBinary

/-!
# C100: `QDelta` coefficients computed from nodes in rounded arithmetic
-/

namespace QMat

open Finset Spec Matrix Rounding

variable {R : Rounding} {M : ℕ}

namespace NodeClass

/-- The names of the classes in `QDELTA_GENERATORS`. -/
def keys : NodeClass → List String
  | .BE => ["BE", "IE"]
  | .FE => ["FE", "EE"]
  | .TRAP => ["TRAP", "CN"]
  | .BEPAR => ["BEPAR", "IEpar"]
  | .TRAPAR => ["TRAPAR"]
  | .MIN_SR_NS => ["MIN_SR_NS", "MIN-SR-NS", "MIN_GT"]
  | .Jumper => ["Jumper", "JUMPER", "FB"]
  | .FlexJumper => ["FlexJumper", "FLEX-JUMPER", "FB2"]
  | .DNODES 1 => ["DNODES", "DNODES-1"]
  | .DNODES 2 => ["DNODES2", "DNODES-2"]
  | .DNODES 3 => ["DNODES3", "DNODES-3"]
  | .DNODES 4 => ["DNODES4", "DNODES-4"]
  | .DNODES 5 => ["DNODES5", "DNODES-5"]
  | .DNODES _ => []

/-- The coefficients in exact arithmetic. -/
noncomputable def exact (x : Fin M → ℝ) (tLeft : ℝ) (k : Option ℤ) : NodeClass → PyResult (Matrix (Fin M) (Fin M) ℝ)
  | .BE => do let g ← TimeStepping.new x tLeft; return g.computeBE
  | .FE => do let g ← TimeStepping.new x tLeft; return g.computeFE
  | .TRAP => do let g ← TimeStepping.new x tLeft; return g.computeTRAP
  | .BEPAR => do let g ← TimeStepping.new x tLeft; return g.computeBEPAR
  | .TRAPAR => do let g ← TimeStepping.new x tLeft; return g.computeTRAPAR
  | .MIN_SR_NS => .ok (computeMINSRNS x)
  | .Jumper => computeJumper x k
  | .FlexJumper => computeFlexJumper x k
  | .DNODES d => .ok (computeDNODES d x)

end NodeClass

theorem getQD_kwTime (ext : ExternalNum) (x : Fin M → ℝ) (tLeft : ℝ) (k : Option ℤ) {name nm : String} {al : List String}
    {compute : {M : ℕ} → TimeStepping M → PyResult (Matrix (Fin M) (Fin M) ℝ)} {dTau : {M : ℕ} → TimeStepping M → Fin M → ℝ}
    (hC : QDELTA_GENERATORS ext name = some (classTime nm al compute dTau)) :
    getQD ext name (kwTime x tLeft) k = (TimeStepping.new x tLeft >>= fun g => compute g).map fun A => ⟨M, A⟩ := by
  have hl : lookupQDelta ext name = .ok (classTime nm al compute dTau) := by
    unfold lookupQDelta
    rw [hC]
  have hd : (classTime nm al compute dTau).call [] (kwTime x tLeft) =
      (TimeStepping.new x tLeft >>= fun g => pure
        ({ size := M, kDependent := false, compute := fun _ => compute g, shared := fun _ => false,
           dTau := dTau g } : QDeltaGen)) := rfl
  unfold getQD makeQD
  rw [hl]
  change ((classTime nm al compute dTau).call [] (kwTime x tLeft) >>= _) = _
  rw [hd]
  cases TimeStepping.new x tLeft with
  | error e => rfl
  | ok g =>
    change (compute g >>= _) = (compute g).map _
    cases compute g <;> rfl

theorem getQD_kwNodes (ext : ExternalNum) (x : Fin M → ℝ) (tLeft : ℝ) (k : Option ℤ) {name nm : String} {al : List String} {kd : Bool}
    {compute : {M : ℕ} → (Fin M → ℝ) → Option ℤ → PyResult (Matrix (Fin M) (Fin M) ℝ)}
    (hC : QDELTA_GENERATORS ext name = some (classNodes nm al kd compute)) :
    getQD ext name (kwTime x tLeft) k = (compute x k).map fun A => ⟨M, A⟩ := by
  have hl : lookupQDelta ext name = .ok (classNodes nm al kd compute) := by
    unfold lookupQDelta
    rw [hC]
  have hd : (classNodes nm al kd compute).call [] (kwTime x tLeft) =
      .ok { size := M, kDependent := kd, compute := compute x, shared := fun _ => false, dTau := 0 } := rfl
  unfold getQD makeQD
  rw [hl]
  change ((classNodes nm al kd compute).call [] (kwTime x tLeft) >>= _) = _
  rw [hd]
  change (compute x k >>= _) = (compute x k).map _
  cases compute x k <;> rfl

/-- C100: these are the coefficients of the generators of these names, built with `nodes=x, tLeft=tLeft`. -/
theorem C100_names (ext : ExternalNum) (c : NodeClass) (x : Fin M → ℝ) (tLeft : ℝ) (k : Option ℤ) (name : String)
    (hn : name ∈ c.keys) : getQD ext name (kwTime x tLeft) k = (c.exact x tLeft k).map fun A => ⟨M, A⟩ := by
  cases c with
  | DNODES d =>
    match d, hn with
    | 0, hn => cases hn
    | 1, hn =>
      simp only [NodeClass.keys, List.mem_cons, List.not_mem_nil, or_false] at hn
      rcases hn with rfl | rfl <;> exact getQD_kwNodes ext x tLeft k (compute := fun v _ => .ok (computeDNODES 1 v)) rfl
    | 2, hn =>
      simp only [NodeClass.keys, List.mem_cons, List.not_mem_nil, or_false] at hn
      rcases hn with rfl | rfl <;> exact getQD_kwNodes ext x tLeft k (compute := fun v _ => .ok (computeDNODES 2 v)) rfl
    | 3, hn =>
      simp only [NodeClass.keys, List.mem_cons, List.not_mem_nil, or_false] at hn
      rcases hn with rfl | rfl <;> exact getQD_kwNodes ext x tLeft k (compute := fun v _ => .ok (computeDNODES 3 v)) rfl
    | 4, hn =>
      simp only [NodeClass.keys, List.mem_cons, List.not_mem_nil, or_false] at hn
      rcases hn with rfl | rfl <;> exact getQD_kwNodes ext x tLeft k (compute := fun v _ => .ok (computeDNODES 4 v)) rfl
    | 5, hn =>
      simp only [NodeClass.keys, List.mem_cons, List.not_mem_nil, or_false] at hn
      rcases hn with rfl | rfl <;> exact getQD_kwNodes ext x tLeft k (compute := fun v _ => .ok (computeDNODES 5 v)) rfl
    | _ + 6, hn => cases hn
  | BE =>
    simp only [NodeClass.keys, List.mem_cons, List.not_mem_nil, or_false] at hn
    rcases hn with rfl | rfl <;> exact getQD_kwTime ext x tLeft k (compute := fun g => .ok g.computeBE) (dTau := fun _ => 0) rfl
  | FE =>
    simp only [NodeClass.keys, List.mem_cons, List.not_mem_nil, or_false] at hn
    rcases hn with rfl | rfl <;> exact getQD_kwTime ext x tLeft k (compute := fun g => .ok g.computeFE) (dTau := fun g => g.dTauFE) rfl
  | TRAP =>
    simp only [NodeClass.keys, List.mem_cons, List.not_mem_nil, or_false] at hn
    rcases hn with rfl | rfl <;> exact getQD_kwTime ext x tLeft k (compute := fun g => .ok g.computeTRAP) (dTau := fun g => g.dTauTRAP) rfl
  | BEPAR =>
    simp only [NodeClass.keys, List.mem_cons, List.not_mem_nil, or_false] at hn
    rcases hn with rfl | rfl <;> exact getQD_kwTime ext x tLeft k (compute := fun g => .ok g.computeBEPAR) (dTau := fun _ => 0) rfl
  | TRAPAR =>
    simp only [NodeClass.keys, List.mem_cons, List.not_mem_nil, or_false] at hn
    subst hn
    exact getQD_kwTime ext x tLeft k (compute := fun g => .ok g.computeTRAPAR) (dTau := fun g => g.dTauTRAPAR) rfl
  | MIN_SR_NS =>
    simp only [NodeClass.keys, List.mem_cons, List.not_mem_nil, or_false] at hn
    rcases hn with rfl | rfl | rfl <;> exact getQD_kwNodes ext x tLeft k (compute := fun v _ => .ok (computeMINSRNS v)) rfl
  | Jumper =>
    simp only [NodeClass.keys, List.mem_cons, List.not_mem_nil, or_false] at hn
    rcases hn with rfl | rfl | rfl <;> exact getQD_kwNodes ext x tLeft k (compute := fun v k => computeJumper v k) rfl
  | FlexJumper =>
    simp only [NodeClass.keys, List.mem_cons, List.not_mem_nil, or_false] at hn
    rcases hn with rfl | rfl | rfl <;> exact getQD_kwNodes ext x tLeft k (compute := fun v k => computeFlexJumper v k) rfl

/-! ## Entries -/

theorem checkK_ge {k : Option ℤ} {k' : ℤ} (h : checkK k = .ok k') : 1 ≤ k' := by
  unfold checkK at h
  simp only at h
  split_ifs at h
  cases h
  omega

/-- C100: entries of the computed coefficients, for nodes `x'` that differ from `x` by at most `e`: three roundings, and the difference of two
nodes. (`TRAPAR` subtracts `tLeft` from halved nodes: only `tLeft = 0`.) -/
theorem C100_entries (hM : 0 < M) (c : NodeClass) (x x' : Fin M → ℝ) (tLeft e : ℝ) (he : ∀ i, |x' i - x i| ≤ e) (hx : Monotone x)
    (h0 : ∀ i, tLeft ≤ x i) (ht : c = .TRAPAR → tLeft = 0) (hd : c ≠ .DNODES 0) (k : Option ℤ) (D : Matrix (Fin M) (Fin M) ℝ)
    (hD : c.exact x tLeft k = .ok D) :
    ∃ D', R.computeQDelta x' tLeft k c = .ok D' ∧ ∀ i j, |D' i j - D i j| ≤ ((1 + R.u) ^ 3 - 1) * |D i j| + (1 + R.u) ^ 3 * (2 * e) := by
  have he0 : 0 ≤ e := (abs_nonneg _).trans (he ⟨0, hM⟩)
  obtain ⟨g, hg⟩ : ∃ g, TimeStepping.new x tLeft = .ok g := by
    unfold TimeStepping.new; rw [if_pos hM]; exact ⟨_, rfl⟩
  obtain ⟨f, hf⟩ : ∃ f, R.timeStepping x' tLeft = .ok f := by
    unfold timeStepping; rw [if_pos hM]; exact ⟨_, rfl⟩
  obtain ⟨g', hg', hn, htl, hdel⟩ := timeStepping_ok hf
  have hap : ∀ i, R.Apx 1 (2 * e) (f.deltas i) (g.deltas i) := fun i => by
    rw [hdel]; exact (apx_of (deltas_err hg hg' he i)).fl
  have hpos : ∀ i, 0 ≤ g.deltas i := fun i => by
    rw [(g.new_ok hg).2.2.2]
    split_ifs with hi
    · linarith [h0 i]
    · have : x ⟨i - 1, by omega⟩ ≤ x i := hx (Fin.le_def.2 (by simp))
      linarith
  have hidem : ∀ i, R.fl (f.deltas i) = f.deltas i := fun i => by rw [hdel, R.idem]
  have hz : ∀ r c : Fin M, R.fl ((0 : Matrix (Fin M) (Fin M) ℝ) r c) = (0 : Matrix (Fin M) (Fin M) ℝ) r c := fun r c => fl_zero'
  have hBE : ∀ r c, R.loopBE f 0 r c = if c ≤ r then f.deltas c else 0 := fun r c => by
    rw [loopBE_apply f 0 hz, Matrix.zero_apply, zero_add, hidem]
  have hgn := (g.new_ok hg).2.1
  have hgt := (g.new_ok hg).2.2.1
  -- divided nodes
  have hdiv : ∀ d : ℝ, 1 ≤ d → ∀ i j, |R.dividedNodes x' d i j - Matrix.diagonal x i j / d| ≤
      ((1 + R.u) ^ 3 - 1) * |Matrix.diagonal x i j / d| + (1 + R.u) ^ 3 * (2 * e) := by
    intro d hd1 i j
    have hd0 : 0 < d := by linarith
    have h1 : R.Apx 0 e (Matrix.diagonal x' i j) (Matrix.diagonal x i j) := by
      by_cases hij : i = j
      · subst hij
        simpa using apx_of (R := R) (he i)
      · rw [Matrix.diagonal_apply_ne _ hij, Matrix.diagonal_apply_ne _ hij]
        exact apx_self he0 _
    have h2 : e / d ≤ 2 * e := by rw [div_le_iff₀ hd0]; nlinarith
    exact (h1.div hd0).fl.mono (by norm_num) (by positivity) h2
  cases c with
  | BE =>
    simp only [NodeClass.exact, hg] at hD
    cases hD
    refine ⟨R.loopBE f 0, by simp only [computeQDelta, hf]; rfl, fun i j => ?_⟩
    rw [hBE, g.computeBE_apply]
    split_ifs
    · exact (hap j).mono (by norm_num) (by positivity) le_rfl
    · exact apx_self (R := R) (n := 3) (by positivity) 0
  | FE =>
    simp only [NodeClass.exact, hg] at hD
    cases hD
    refine ⟨R.loopFE f 0, by simp only [computeQDelta, hf]; rfl, fun i j => ?_⟩
    rw [loopFE_apply f 0 hz, g.computeFE_apply, Matrix.zero_apply, zero_add]
    split_ifs with hij
    · have hj : (j : ℕ) + 1 < M := lt_of_le_of_lt (Fin.lt_def.1 hij) i.isLt
      simp only [atPos, hj, dif_pos, hidem]
      exact (hap _).mono (by norm_num) (by positivity) le_rfl
    · exact apx_self (R := R) (n := 3) (by positivity) 0
  | TRAP =>
    simp only [NodeClass.exact, hg] at hD
    cases hD
    refine ⟨R.computeTRAP f, by simp only [computeQDelta, hf]; rfl, fun i j => ?_⟩
    have e1 : R.computeTRAP f i j = R.fl (R.loopFE f (R.loopBE f 0) i j / 2) := rfl
    rw [e1, g.computeTRAP_eq, g.computeBE_apply, g.computeFE_apply, loopFE_apply f _ (fun r c => by
      rw [hBE]; split_ifs
      · exact hidem _
      · exact fl_zero'), hBE]
    by_cases hij : j < i
    · have hj : (j : ℕ) + 1 < M := lt_of_le_of_lt (Fin.lt_def.1 hij) i.isLt
      rw [if_pos hij, if_pos hij.le, if_pos hij, if_pos hij.le]
      simp only [atPos, hj, dif_pos]
      have := (((hap j).add (hap ⟨j + 1, hj⟩) (hpos _) (hpos _)).fl.div two_pos).fl
      rwa [show (2 * e + 2 * e) / 2 = 2 * e by ring] at this
    · rw [if_neg hij, if_neg hij, add_zero]
      split_ifs
      · have := ((hap j).div two_pos).fl
        exact this.mono (by norm_num) (by positivity) (by linarith)
      · rw [zero_div, fl_zero']
        exact apx_self (R := R) (n := 3) (by positivity) 0
  | BEPAR =>
    simp only [NodeClass.exact, hg] at hD
    cases hD
    refine ⟨R.computeBEPAR f, by simp only [computeQDelta, hf]; rfl, fun i j => ?_⟩
    have e1 : R.computeBEPAR f i j = R.fl (Matrix.diagonal f.nodes i j - f.tLeft) := rfl
    have e2 : g.computeBEPAR i j = Matrix.diagonal g.nodes i j - g.tLeft := rfl
    rw [e1, e2, hn, htl, hgn, hgt]
    have h1 : R.Apx 0 e (Matrix.diagonal x' i j - tLeft) (Matrix.diagonal x i j - tLeft) := by
      refine apx_of ?_
      rw [sub_sub_sub_cancel_right]
      by_cases hij : i = j
      · subst hij
        simpa using he i
      · rw [Matrix.diagonal_apply_ne _ hij, Matrix.diagonal_apply_ne _ hij, sub_self, abs_zero]
        exact he0
    exact h1.fl.mono (by norm_num) he0 (by linarith)
  | TRAPAR =>
    simp only [NodeClass.exact, hg] at hD
    cases hD
    refine ⟨R.computeTRAPAR f, by simp only [computeQDelta, hf]; rfl, fun i j => ?_⟩
    have e1 : R.computeTRAPAR f i j = R.fl (Matrix.diagonal (fun i => R.fl (f.nodes i / 2)) i j - f.tLeft) := rfl
    have e2 : g.computeTRAPAR i j = Matrix.diagonal (fun i => g.nodes i / 2) i j - g.tLeft := rfl
    rw [e1, e2, hn, htl, hgn, hgt, ht rfl, sub_zero, sub_zero]
    by_cases hij : i = j
    · subst hij
      rw [Matrix.diagonal_apply_eq, Matrix.diagonal_apply_eq]
      have h1 : R.Apx 0 e (x' i) (x i) := apx_of (he i)
      exact ((h1.div two_pos).fl.fl).mono (by norm_num) (by positivity) (by linarith)
    · rw [Matrix.diagonal_apply_ne _ hij, Matrix.diagonal_apply_ne _ hij, fl_zero']
      exact apx_self (R := R) (n := 3) (by positivity) 0
  | MIN_SR_NS =>
    cases hD
    exact ⟨_, rfl, hdiv M (by exact_mod_cast hM)⟩
  | DNODES d =>
    cases hD
    have : 1 ≤ d := Nat.one_le_iff_ne_zero.2 fun h => hd (by rw [h])
    exact ⟨_, rfl, hdiv d (by exact_mod_cast this)⟩
  | Jumper =>
    simp only [NodeClass.exact, computeJumper] at hD
    cases hk : checkK k with
    | error er => rw [hk] at hD; cases hD
    | ok k' =>
      rw [hk] at hD
      cases hD
      have h1 := checkK_ge hk
      refine ⟨_, by simp only [computeQDelta, hk]; rfl, hdiv (2 * k') ?_⟩
      have : (1:ℝ) ≤ k' := by exact_mod_cast h1
      linarith
  | FlexJumper =>
    simp only [NodeClass.exact, computeFlexJumper] at hD
    cases hk : checkK k with
    | error er => rw [hk] at hD; cases hD
    | ok k' =>
      rw [hk] at hD
      cases hD
      have h1 := checkK_ge hk
      refine ⟨_, by simp only [computeQDelta, hk]; rfl, hdiv _ ?_⟩
      have : (1:ℤ) ≤ if k' = 1 then 1 else 2 * (k' - 1) := by split_ifs <;> omega
      exact_mod_cast this

/-- C100: floating point nodes `x` and nonnegative steps: all entries have small relative errors. -/
theorem C100_relative (hM : 0 < M) (c : NodeClass) (x : Fin M → ℝ) (tLeft : ℝ) (hx : Monotone x) (h0 : ∀ i, tLeft ≤ x i)
    (ht : c = .TRAPAR → tLeft = 0) (hd : c ≠ .DNODES 0) (k : Option ℤ) (D : Matrix (Fin M) (Fin M) ℝ) (hD : c.exact x tLeft k = .ok D) :
    ∃ D', R.computeQDelta x tLeft k c = .ok D' ∧ ∀ i j, |D' i j - D i j| ≤ ((1 + R.u) ^ 3 - 1) * |D i j| := by
  obtain ⟨D', h1, h2⟩ := C100_entries (R := R) hM c x x tLeft 0 (by simp) hx h0 ht hd k D hD
  exact ⟨D', h1, by simpa using h2⟩

/-- C100: a class raises in rounded arithmetic if and only if it raises in exact arithmetic, and raises the same error. -/
theorem C100_raises (c : NodeClass) (x x' : Fin M → ℝ) (tLeft : ℝ) (k : Option ℤ) (er : PyErr) :
    R.computeQDelta x' tLeft k c = .error er ↔ c.exact x tLeft k = .error er := by
  have ht : ∀ (p : TimeStepping M → Matrix (Fin M) (Fin M) ℝ) (p' : TimeStepping M → Matrix (Fin M) (Fin M) ℝ),
      ((R.timeStepping x' tLeft >>= fun g => pure (p g)) = Except.error er) ↔
      ((TimeStepping.new x tLeft >>= fun g => pure (p' g)) = Except.error er) := by
    intro p p'
    unfold timeStepping TimeStepping.new
    split_ifs
    · exact ⟨fun h => (by cases h), fun h => (by cases h)⟩
    · exact Iff.rfl
  cases c with
  | BE => exact ht _ _
  | FE => exact ht _ _
  | TRAP => exact ht _ _
  | BEPAR => exact ht _ _
  | TRAPAR => exact ht _ _
  | MIN_SR_NS => exact ⟨fun h => (by cases h), fun h => (by cases h)⟩
  | DNODES d => exact ⟨fun h => (by cases h), fun h => (by cases h)⟩
  | Jumper =>
    simp only [computeQDelta, NodeClass.exact, computeJumper]
    cases checkK k with
    | error e => exact Iff.rfl
    | ok k => exact ⟨fun h => (by cases h), fun h => (by cases h)⟩
  | FlexJumper =>
    simp only [computeQDelta, NodeClass.exact, computeFlexJumper]
    cases checkK k with
    | error e => exact Iff.rfl
    | ok k => exact ⟨fun h => (by cases h), fun h => (by cases h)⟩

/-- C100: with left bound 0 and nodes between 0 and `L`, the coefficients are nonnegative, lower triangular, and have rows with sums of at
most `L`. -/
theorem C100_rows (c : NodeClass) (x : Fin M → ℝ) (L : ℝ) (hx : Monotone x) (h0 : ∀ i, 0 ≤ x i) (hL : ∀ i, x i ≤ L) (hd : c ≠ .DNODES 0)
    (k : Option ℤ) (D : Matrix (Fin M) (Fin M) ℝ) (hD : c.exact x 0 k = .ok D) :
    (∀ i j, 0 ≤ D i j) ∧ (∀ i j, i < j → D i j = 0) ∧ ∀ i, ∑ j, D i j ≤ L := by
  have hdiag : ∀ d : Fin M → ℝ, (∀ i, 0 ≤ d i) → (∀ i, d i ≤ L) → (∀ i j, 0 ≤ Matrix.diagonal d i j) ∧
      (∀ i j, i < j → Matrix.diagonal d i j = 0) ∧ ∀ i, ∑ j, Matrix.diagonal d i j ≤ L := by
    intro d hd0 hdL
    refine ⟨fun i j => ?_, fun i j hij => Matrix.diagonal_apply_ne _ hij.ne, fun i => ?_⟩
    · by_cases h : i = j
      · subst h; simpa using hd0 i
      · rw [Matrix.diagonal_apply_ne _ h]
    · rw [Finset.sum_eq_single i (fun j _ hj => Matrix.diagonal_apply_ne _ (Ne.symm hj)) (by simp)]
      simpa using hdL i
  have hdiv : ∀ d : ℝ, 1 ≤ d → (∀ i j, 0 ≤ Matrix.diagonal x i j / d) ∧ (∀ i j, i < j → Matrix.diagonal x i j / d = 0) ∧
      ∀ i, ∑ j, Matrix.diagonal x i j / d ≤ L := by
    intro d hd1
    have hd0 : 0 < d := by linarith
    obtain ⟨a, b, c⟩ := hdiag (fun i => x i / d) (fun i => div_nonneg (h0 i) hd0.le)
      (fun i => (div_le_self (h0 i) hd1).trans (hL i))
    have e : ∀ i j, Matrix.diagonal x i j / d = Matrix.diagonal (fun i => x i / d) i j := fun i j => by
      by_cases h : i = j
      · subst h; simp
      · rw [Matrix.diagonal_apply_ne _ h, Matrix.diagonal_apply_ne _ h, zero_div]
    simp only [e]
    exact ⟨a, b, c⟩
  have htime : ∀ {p : TimeStepping M → Matrix (Fin M) (Fin M) ℝ},
      (TimeStepping.new x 0 >>= fun g => pure (p g)) = Except.ok D → ∃ g, TimeStepping.new x 0 = .ok g ∧ D = p g := by
    intro p h
    cases hg : TimeStepping.new x 0 with
    | error e => rw [hg] at h; cases h
    | ok g => rw [hg] at h; cases h; exact ⟨g, rfl, rfl⟩
  have hpos : ∀ g, TimeStepping.new x 0 = .ok g → ∀ i, 0 ≤ g.deltas i := fun g hg i => by
    rw [(g.new_ok hg).2.2.2]
    split_ifs with hi
    · linarith [h0 i]
    · have : x ⟨i - 1, by omega⟩ ≤ x i := hx (Fin.le_def.2 (by simp))
      linarith
  have hpos' : ∀ g, TimeStepping.new x 0 = .ok g → ∀ i, 0 ≤ atPos g.deltas i := fun g hg i => by
    unfold atPos
    split_ifs
    · exact hpos g hg _
    · exact le_rfl
  have hBE : ∀ g, TimeStepping.new x 0 = .ok g → ∀ i j, 0 ≤ g.computeBE i j := fun g hg i j => by
    rw [g.computeBE_apply]
    split_ifs
    · exact hpos g hg _
    · exact le_rfl
  have hFE : ∀ g, TimeStepping.new x 0 = .ok g → ∀ i j, 0 ≤ g.computeFE i j := fun g hg i j => by
    rw [g.computeFE_apply]
    split_ifs
    · exact hpos' g hg _
    · exact le_rfl
  cases c with
  | BE =>
    obtain ⟨g, hg, rfl⟩ := htime hD
    refine ⟨hBE g hg, fun i j hij => by rw [g.computeBE_apply, if_neg (not_le.2 hij)], fun i => ?_⟩
    rw [(C39_row_sums x 0 g hg i).1]
    linarith [hL i]
  | FE =>
    obtain ⟨g, hg, rfl⟩ := htime hD
    refine ⟨hFE g hg, fun i j hij => by rw [g.computeFE_apply, if_neg (not_lt.2 hij.le)], fun i => ?_⟩
    have h1 := (C39_row_sums x 0 g hg i).2.1
    have h2 : 0 ≤ g.dTauFE i := by
      simp only [TimeStepping.dTauFE, mul_zero, zero_add]
      exact hpos' g hg 0
    linarith [hL i]
  | TRAP =>
    obtain ⟨g, hg, rfl⟩ := htime hD
    refine ⟨fun i j => ?_, fun i j hij => ?_, fun i => ?_⟩
    · rw [g.computeTRAP_eq]
      linarith [hBE g hg i j, hFE g hg i j]
    · rw [g.computeTRAP_eq, g.computeBE_apply, g.computeFE_apply, if_neg (not_le.2 hij), if_neg (not_lt.2 hij.le)]
      norm_num
    · have h1 := (C39_row_sums x 0 g hg i).2.2
      have h2 : 0 ≤ g.dTauTRAP i := by
        simp only [TimeStepping.dTauTRAP, mul_zero, zero_add]
        have := hpos' g hg 0
        positivity
      linarith [hL i]
  | BEPAR =>
    obtain ⟨g, hg, rfl⟩ := htime hD
    have e : g.computeBEPAR = Matrix.diagonal x := by
      ext i j
      simp [TimeStepping.computeBEPAR, (g.new_ok hg).2.1, (g.new_ok hg).2.2.1]
    rw [e]
    exact hdiag x h0 hL
  | TRAPAR =>
    obtain ⟨g, hg, rfl⟩ := htime hD
    have e : g.computeTRAPAR = Matrix.diagonal fun i => x i / 2 := by
      ext i j
      simp [TimeStepping.computeTRAPAR, (g.new_ok hg).2.1, (g.new_ok hg).2.2.1]
    rw [e]
    exact hdiag _ (fun i => by linarith [h0 i]) (fun i => by linarith [h0 i, hL i])
  | MIN_SR_NS =>
    cases hD
    rcases Nat.eq_zero_or_pos M with hM | hM
    · subst hM
      exact ⟨fun i => i.elim0, fun i => i.elim0, fun i => i.elim0⟩
    · exact hdiv M (by exact_mod_cast hM)
  | DNODES d =>
    cases hD
    have : 1 ≤ d := Nat.one_le_iff_ne_zero.2 fun h => hd (by rw [h])
    exact hdiv d (by exact_mod_cast this)
  | Jumper =>
    simp only [NodeClass.exact, computeJumper] at hD
    cases hk : checkK k with
    | error er => rw [hk] at hD; cases hD
    | ok k' =>
      rw [hk] at hD
      cases hD
      refine hdiv (2 * k') ?_
      have : (1:ℝ) ≤ k' := by exact_mod_cast checkK_ge hk
      linarith
  | FlexJumper =>
    simp only [NodeClass.exact, computeFlexJumper] at hD
    cases hk : checkK k with
    | error er => rw [hk] at hD; cases hD
    | ok k' =>
      rw [hk] at hD
      cases hD
      have h1 := checkK_ge hk
      have h2 : (1:ℤ) ≤ if k' = 1 then 1 else 2 * (k' - 1) := by split_ifs <;> omega
      exact hdiv _ (by exact_mod_cast h2)

/-- C100: rows of the computed coefficients, for exact nodes between 0 and `L` and computed nodes that differ by at most `e`. -/
theorem C100_row_errors (hM : 0 < M) (c : NodeClass) (x x' : Fin M → ℝ) (e L : ℝ) (he : ∀ i, |x' i - x i| ≤ e) (hx : Monotone x)
    (h0 : ∀ i, 0 ≤ x i) (hL : ∀ i, x i ≤ L) (hd : c ≠ .DNODES 0) (k : Option ℤ) (D : Matrix (Fin M) (Fin M) ℝ)
    (hD : c.exact x 0 k = .ok D) :
    ∃ D', R.computeQDelta x' 0 k c = .ok D' ∧ ∀ i, ∑ j, |D' i j - D i j| ≤ (1 + R.u) ^ 3 * (L + 2 * M * e) - L := by
  obtain ⟨D', h1, h2⟩ := C100_entries (R := R) hM c x x' 0 e he hx h0 (fun _ => rfl) hd k D hD
  obtain ⟨hn, -, hr⟩ := C100_rows c x L hx h0 hL hd k D hD
  refine ⟨D', h1, fun i => ?_⟩
  have h3 := Finset.sum_le_sum fun j (_ : j ∈ Finset.univ) => h2 i j
  refine h3.trans ?_
  rw [Finset.sum_add_distrib, ← Finset.mul_sum, Finset.sum_const, Finset.card_univ, Fintype.card_fin, nsmul_eq_mul]
  simp only [abs_of_nonneg (hn _ _)]
  have h4 := mul_le_mul_of_nonneg_left (hr i) (sub_nonneg.2 (one_le_pow' (R := R) 3))
  have e1 : (M:ℝ) * ((1 + R.u) ^ 3 * (2 * e)) = (1 + R.u) ^ 3 * (2 * M * e) := by ring
  rw [e1]
  linarith

/-- Double precision. -/
noncomputable def double53 : Rounding := binary 53 (by norm_num)

/-- Three nodes, backward Euler: the hypotheses are met. -/
example : ∃ D D', NodeClass.BE.exact ![1/4, 1/2, 1] 0 none = .ok D ∧ double53.computeQDelta ![1/4, 1/2, 1] 0 none .BE = .ok D' ∧
    ∀ i, ∑ j, |D' i j - D i j| ≤ (1 + double53.u) ^ 3 * (1 + 2 * 3 * 0) - 1 := by
  obtain ⟨D, hD⟩ : ∃ D, NodeClass.BE.exact (![1/4, 1/2, 1] : Fin 3 → ℝ) 0 none = .ok D := ⟨_, rfl⟩
  obtain ⟨D', h1, h2⟩ := C100_row_errors (R := double53) (by norm_num) .BE ![1/4, 1/2, 1] ![1/4, 1/2, 1] 0 1 (by simp)
    (by
      refine Fin.monotone_iff_le_succ.2 fun i => ?_
      fin_cases i <;> norm_num [Matrix.cons_val_two])
    (fun i => by fin_cases i <;> norm_num) (fun i => by fin_cases i <;> norm_num) (by simp) none D hD
  exact ⟨D, D', hD, h1, by exact_mod_cast h2⟩

/-! ## Node-to-node form and `dTau` -/

/-- C100: node-to-node form of any computed coefficients, whatever the order of the sums. -/
theorem C100_SDelta (D S : Matrix (Fin M) (Fin M) ℝ) (h : R.SDelta D S) (hM : (M : ℝ) * R.u < 1) (i j : Fin M) :
    |S i j - (qgenT M * D) i j| ≤ gamma R.u M * (|D i j| + prev 0 (fun m => |D m j|) i) := by
  have h1 := npDot_err (h i j) (by simpa using hM)
  rw [Fintype.card_fin] at h1
  have e : ∑ l, |qgenT M i l| * |D l j| = |D i j| + prev 0 (fun m => |D m j|) i := by
    have e1 : ∀ l, |qgenT M i l| * |D l j| = (if i = l then |D l j| else 0) + if (i : ℕ) = l + 1 then |D l j| else 0 := by
      intro l
      simp only [qgenT, Matrix.of_apply]
      by_cases h1 : i = l
      · subst h1
        simp
      · rw [if_neg h1, if_neg h1]
        split_ifs <;> simp
    simp only [e1, Finset.sum_add_distrib, Finset.sum_ite_eq, Finset.mem_univ, if_true]
    congr 1
    unfold prev
    split_ifs with hi
    · exact Finset.sum_eq_zero fun l _ => by rw [if_neg (by omega)]
    · rw [Finset.sum_eq_single ⟨i - 1, by omega⟩]
      · rw [if_pos (by simp; omega)]
      · intro l _ hl
        rw [if_neg fun h => hl (Fin.ext (by simp; omega))]
      · simp
  rw [e] at h1
  rwa [Matrix.mul_apply]

/-- A possible result exists. -/
example (D : Matrix (Fin M) (Fin M) ℝ) : ∃ S, R.SDelta D S := by
  choose S hS using fun i j => NpDot.exists (R := R) (fun l => qgenT M i l) (fun l => D l j)
  exact ⟨S, hS⟩

/-- C100: `dTau` of `FE`, `TRAP` (and `TRAPAR` with left bound 0) have small relative errors. -/
theorem C100_dTau (x : Fin M → ℝ) (tLeft : ℝ) (f g : TimeStepping M) (hf : R.timeStepping x tLeft = .ok f)
    (hg : TimeStepping.new x tLeft = .ok g) (i : Fin M) :
    |R.dTauFE f i - g.dTauFE i| ≤ R.u * |g.dTauFE i| ∧
    |R.dTauTRAP f i - g.dTauTRAP i| ≤ ((1 + R.u) ^ 2 - 1) * |g.dTauTRAP i| ∧
    (tLeft = 0 → |R.dTauTRAPAR f i - g.dTauTRAPAR i| ≤ ((1 + R.u) ^ 2 - 1) * |g.dTauTRAPAR i|) := by
  obtain ⟨g', hg', hn, ht, hd⟩ := timeStepping_ok hf
  rw [hg] at hg'
  cases hg'
  have hM : 0 < M := i.pos
  have e0 : atPos f.deltas 0 = R.fl (atPos g.deltas 0) := by
    simp only [atPos, hM, dif_pos, hd]
  have h0 : ∀ y : ℝ, R.Apx 0 0 y y := fun y => apx_self le_rfl y
  refine ⟨?_, ?_, fun h => ?_⟩
  · have e : R.dTauFE f i = R.fl (atPos g.deltas 0) := by
      simp only [dTauFE, mul_zero, fl_zero', zero_add, e0, R.idem]
    have e' : g.dTauFE i = atPos g.deltas 0 := by simp [TimeStepping.dTauFE]
    rw [e, e']
    exact R.err _
  · have e : R.dTauTRAP f i = R.fl (R.fl (atPos g.deltas 0) / 2) := by
      simp only [dTauTRAP, mul_zero, fl_zero', zero_add, e0, R.idem]
    have e' : g.dTauTRAP i = atPos g.deltas 0 / 2 := by simp [TimeStepping.dTauTRAP]
    rw [e, e']
    have := ((h0 (atPos g.deltas 0)).fl.div two_pos).fl
    simpa [Apx] using this
  · subst h
    have e : R.dTauTRAPAR f i = R.fl (x i / 2) := by
      simp only [dTauTRAPAR, hn, ht, sub_zero, R.idem]
    have e' : g.dTauTRAPAR i = x i / 2 := by
      simp [TimeStepping.dTauTRAPAR, (g.new_ok hg).2.1, (g.new_ok hg).2.2.1]
    rw [e, e']
    have := (h0 (x i / 2)).fl.mono (m := 2) (by norm_num) le_rfl le_rfl
    simpa [Apx] using this

example : ∃ f g : TimeStepping 2, double53.timeStepping ![1/3, 1] 0 = .ok f ∧ TimeStepping.new ![1/3, 1] 0 = .ok g ∧
    |double53.dTauFE f 1 - g.dTauFE 1| ≤ double53.u * |g.dTauFE 1| := by
  obtain ⟨f, hf⟩ : ∃ f, double53.timeStepping (![1/3, 1] : Fin 2 → ℝ) 0 = .ok f := ⟨_, rfl⟩
  obtain ⟨g, hg⟩ : ∃ g, TimeStepping.new (![1/3, 1] : Fin 2 → ℝ) 0 = .ok g := ⟨_, rfl⟩
  exact ⟨f, g, hf, hg, (C100_dTau _ _ f g hf hg 1).1⟩

end QMat
