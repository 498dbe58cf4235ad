import Verif.Lemmas.TimeReversal
import Verif.Props.RKBStable
import Verif.Props.CollExact
import Verif.Props.CollOrder

/-!
# C112: going back in time
-/

namespace QMat

open Spec Matrix Polynomial NodesGenerator

/-- Node and quadrature types whose nodes are mirror images of each other. -/
def MirrorTypes (nt qt nt' qt' : String) : Prop :=
  ((nt = "CHEBY-3" ∧ nt' = "CHEBY-4") ∨ (nt = "CHEBY-4" ∧ nt' = "CHEBY-3") ∨
    (nt ≠ "CHEBY-3" ∧ nt ≠ "CHEBY-4" ∧ nt' = nt)) ∧
  ((qt = "RADAU-LEFT" ∧ qt' = "RADAU-RIGHT") ∨ (qt = "RADAU-RIGHT" ∧ qt' = "RADAU-LEFT") ∨
    (qt ≠ "RADAU-LEFT" ∧ qt ≠ "RADAU-RIGHT" ∧ qt' = qt))

/-- C112: collocation on mirrored nodes has mirrored coefficients: `Q'[i,j] = w[M-1-j] - Q[M-1-i,M-1-j]`. -/
theorem C112_coefficients {M : ℕ} {nt qt nt' qt' : String} (ht : MirrorTypes nt qt nt' qt') (c c' : Collocation M)
    (hc : Collocation.new M nt qt 0 1 = .ok c) (hc' : Collocation.new M nt' qt' 0 1 = .ok c')
    (hun : Unmoved nt qt c) (hun' : Unmoved nt' qt' c') :
    Mirrored c.nodes c.Q c.weights c'.nodes c'.Q c'.weights := by
  obtain ⟨x, hx, hcx⟩ := hun
  obtain ⟨y, hy, hcy⟩ := hun'
  have hv : nt ∈ NODE_TYPES ∧ qt ∈ QUAD_TYPES := by
    by_contra hv
    obtain ⟨e, he⟩ : ∃ e, NodesGenerator.new nt qt = .error e := ⟨_, (C15_constructor_errors nt qt).2 hv⟩
    unfold Collocation.new at hc
    simp [bind, Except.bind, he] at hc
  refine collocation_mirrored c c' hc hc' fun i => ?_
  rw [hcy, hcx, C20_mirror hv.1 hv.2 ht.1 ht.2 x y hx hy i]
  ring

/-- Nodes of symmetric types are not moved: `LOBATTO` nodes, and up to 158 `GAUSS` nodes. -/
theorem unmoved_symmetric {M : ℕ} {nt qt : String} (hnt : nt ∈ ["LEGENDRE", "EQUID", "CHEBY-1", "CHEBY-2"])
    (hqt : qt = "LOBATTO" ∨ qt = "GAUSS" ∧ M ≤ 158) (c : Collocation M)
    (hc : Collocation.new M nt qt 0 1 = .ok c) : Unmoved nt qt c := by
  rcases hqt with rfl | ⟨rfl, hM⟩
  · exact unmoved_lobatto c hc
  · obtain ⟨x, hM0, h⟩ := collocation_spec hc
    have hw : Wide M 0 1 := by
      have : (M:ℝ) ≤ 158 := by exact_mod_cast hM
      have h0 : (0:ℝ) ≤ M := by positivity
      unfold Wide
      norm_num
      nlinarith
    have hb : BonusType nt "GAUSS" := by
      simp only [List.mem_cons, List.not_mem_nil, or_false] at hnt
      rcases hnt with rfl | rfl | rfl | rfl <;> simp [BonusType]
    refine ⟨x, h.getNodes, fun i => ?_⟩
    rw [unsnapped_of_wide hw c hc hb x h.getNodes i]
    ring

theorem symmetric_mirrored {M : ℕ} {nt qt : String} (hnt : nt ∈ ["LEGENDRE", "EQUID", "CHEBY-1", "CHEBY-2"])
    (hqt : qt = "LOBATTO" ∨ qt = "GAUSS" ∧ M ≤ 158) (c : Collocation M)
    (hc : Collocation.new M nt qt 0 1 = .ok c) : Mirrored c.nodes c.Q c.weights c.nodes c.Q c.weights := by
  refine C112_coefficients ⟨?_, ?_⟩ c c hc hc (unmoved_symmetric hnt hqt c hc) (unmoved_symmetric hnt hqt c hc)
  · simp only [List.mem_cons, List.not_mem_nil, or_false] at hnt
    rcases hnt with rfl | rfl | rfl | rfl <;> decide
  · rcases hqt with rfl | ⟨rfl, -⟩ <;> decide

/-- C112: a step on `u' = f(t, u)`, in any vector space, is undone by a step of the same size back in time with the
mirrored nodes. -/
theorem C112_step {M : ℕ} {nt qt nt' qt' : String} (ht : MirrorTypes nt qt nt' qt') (c c' : Collocation M)
    (hc : Collocation.new M nt qt 0 1 = .ok c) (hc' : Collocation.new M nt' qt' 0 1 = .ok c')
    (hun : Unmoved nt qt c) (hun' : Unmoved nt' qt' c')
    {E : Type*} [AddCommGroup E] [Module ℝ E] (f : ℝ → E → E) (t h : ℝ) (u u1 : E) :
    (∃ Y, RKStep c.nodes c.Q c.weights f t h u Y u1) ↔
      ∃ Y, RKStep c'.nodes c'.Q c'.weights f (t + h) (-h) u1 Y u := by
  have hm := C112_coefficients ht c c' hc hc' hun hun'
  constructor
  · rintro ⟨Y, hY⟩
    exact ⟨_, hm.step hY⟩
  · rintro ⟨Y, hY⟩
    have := hm.symm.step hY
    rw [neg_neg, show t + h + -h = t by ring] at this
    exact ⟨_, this⟩

/-- The values of `solveDahlquist` in both directions. -/
theorem round_trip {M : ℕ} (g g' : QGenerator M) (hm : Mirrored g.nodes g.Q g.weights g'.nodes g'.Q g'.weights)
    (lam u0 v : ℂ) (tEnd : ℝ) (n : ℕ) (u u' : List ℂ) (hu : g.solveDahlquist lam u0 tEnd n = .ok u)
    (hv : u.getLast? = some v) (hu' : g'.solveDahlquist lam v (-tEnd) n = .ok u') : u' = u.reverse := by
  have hn : 0 < n := by
    by_contra h0
    obtain ⟨e, he⟩ := (C30_solveDahlquist_errors g lam u0 tEnd).2.1 n (by omega)
    rw [hu] at he
    cases he
  have hdet : (1 - (lam * (tEnd / n : ℝ)) • g.Q.map Complex.ofReal).det ≠ 0 := by
    intro h0
    have := (C30_solveDahlquist_errors g lam u0 tEnd).1 n hn h0
    rw [hu] at this
    cases this
  have hdet' : (1 - (lam * (-tEnd / n : ℝ)) • g'.Q.map Complex.ofReal).det ≠ 0 := by
    intro h0
    have := (C30_solveDahlquist_errors g' lam v (-tEnd)).1 n hn h0
    rw [hu'] at this
    cases this
  have h1 := C30_solveDahlquist g lam u0 tEnd n hn hdet
  have h2 := C30_solveDahlquist g' lam v (-tEnd) n hn hdet'
  rw [hu] at h1
  rw [hu'] at h2
  cases h1
  cases h2
  have e : lam * ((-tEnd / n : ℝ) : ℂ) = -(lam * (tEnd / n : ℝ)) := by push_cast; ring
  rw [e] at hdet' ⊢
  have hs := hm.stability hdet hdet'
  set R := stabilityFunction g.Q g.weights (lam * (tEnd / n : ℝ))
  set R' := stabilityFunction g'.Q g'.weights (-(lam * (tEnd / n : ℝ)))
  have hlast : v = R ^ n * u0 := by
    rw [List.range_succ, List.map_append, List.map_cons, List.map_nil, List.getLast?_append] at hv
    simpa using hv.symm
  apply List.ext_getElem
  · simp
  · intro k hk _
    simp only [List.length_map, List.length_range] at hk
    simp only [List.getElem_map, List.getElem_range, List.getElem_reverse, List.length_map, List.length_range]
    rw [hlast, show n + 1 - 1 - k = n - k by omega]
    conv_lhs => rw [show n = k + (n - k) by omega, pow_add]
    rw [← mul_assoc, ← mul_assoc, ← mul_pow, hs, one_pow, one_mul]

/-- C112: `solveDahlquist` from the last value back to the start, with the mirrored nodes, gives the same values in
reverse order, for every number of steps and step size for which both calls succeed. -/
theorem C112_round_trip {M : ℕ} {nt qt nt' qt' : String} (ht : MirrorTypes nt qt nt' qt') (c c' : Collocation M)
    (hc : Collocation.new M nt qt 0 1 = .ok c) (hc' : Collocation.new M nt' qt' 0 1 = .ok c')
    (hun : Unmoved nt qt c) (hun' : Unmoved nt' qt' c') (lam u0 v : ℂ) (tEnd : ℝ) (n : ℕ) (u u' : List ℂ)
    (hu : c.toQGenerator.solveDahlquist lam u0 tEnd n = .ok u) (hv : u.getLast? = some v)
    (hu' : c'.toQGenerator.solveDahlquist lam v (-tEnd) n = .ok u') : u' = u.reverse :=
  round_trip c.toQGenerator c'.toQGenerator (C112_coefficients ht c c' hc hc' hun hun') lam u0 v tEnd n u u' hu hv hu'

/-- C112: symmetric nodes: the same object goes back. -/
theorem C112_round_trip_symmetric {M : ℕ} {nt qt : String} (hnt : nt ∈ ["LEGENDRE", "EQUID", "CHEBY-1", "CHEBY-2"])
    (hqt : qt = "LOBATTO" ∨ qt = "GAUSS" ∧ M ≤ 158) (c : Collocation M) (hc : Collocation.new M nt qt 0 1 = .ok c)
    (lam u0 v : ℂ) (tEnd : ℝ) (n : ℕ) (u u' : List ℂ)
    (hu : c.toQGenerator.solveDahlquist lam u0 tEnd n = .ok u) (hv : u.getLast? = some v)
    (hu' : c.toQGenerator.solveDahlquist lam v (-tEnd) n = .ok u') : u' = u.reverse :=
  round_trip c.toQGenerator c.toQGenerator (symmetric_mirrored hnt hqt c hc) lam u0 v tEnd n u u' hu hv hu'

theorem det_conj {M : ℕ} (A : Matrix (Fin M) (Fin M) ℝ) (z : ℂ) :
    (1 - (starRingEnd ℂ z) • A.map Complex.ofReal).det = starRingEnd ℂ (1 - z • A.map Complex.ofReal).det := by
  rw [RingHom.map_det]
  congr 1
  ext i j
  by_cases hij : i = j
  · subst hij; simp
  · simp [hij]

theorem stabilityFunction_conj {M : ℕ} (A : Matrix (Fin M) (Fin M) ℝ) (b : Fin M → ℝ) (z : ℂ)
    (hdet : (1 - z • A.map Complex.ofReal).det ≠ 0) :
    stabilityFunction A b (starRingEnd ℂ z) = starRingEnd ℂ (stabilityFunction A b z) := by
  have hdet' : (1 - (starRingEnd ℂ z) • A.map Complex.ofReal).det ≠ 0 := by
    rw [det_conj]
    simpa using hdet
  obtain ⟨Y, hY⟩ := (dahlquist_step (c := fun _ => 0) (b := b) hdet 0 1 _).2 rfl
  have h2 : RKStep (fun _ => 0) A b (fun (_ : ℝ) v => (starRingEnd ℂ z) * v) 0 1 1 (fun i => starRingEnd ℂ (Y i))
      (starRingEnd ℂ (stabilityFunction A b z * 1)) := by
    constructor
    · intro i
      have := congrArg (starRingEnd ℂ) (hY.stages i)
      simpa [Complex.real_smul] using this
    · have := congrArg (starRingEnd ℂ) hY.result
      simpa [Complex.real_smul] using this
  have := (dahlquist_step hdet' 0 _ _).1 ⟨_, h2⟩
  simpa using this.symm

/-- The values of a symmetric method for an oscillation. -/
theorem conserves {M : ℕ} (g : QGenerator M) (hm : Mirrored g.nodes g.Q g.weights g.nodes g.Q g.weights)
    (lam u0 : ℂ) (hlam : lam.re = 0) (tEnd : ℝ) (n : ℕ) (u : List ℂ) (hu : g.solveDahlquist lam u0 tEnd n = .ok u) :
    ∀ v ∈ u, ‖v‖ = ‖u0‖ := by
  have hn : 0 < n := by
    by_contra h0
    obtain ⟨e, he⟩ := (C30_solveDahlquist_errors g lam u0 tEnd).2.1 n (by omega)
    rw [hu] at he
    cases he
  have hdet : (1 - (lam * (tEnd / n : ℝ)) • g.Q.map Complex.ofReal).det ≠ 0 := by
    intro h0
    have := (C30_solveDahlquist_errors g lam u0 tEnd).1 n hn h0
    rw [hu] at this
    cases this
  have h1 := C30_solveDahlquist g lam u0 tEnd n hn hdet
  rw [hu] at h1
  cases h1
  set z := lam * (tEnd / n : ℝ) with hz
  have hconj : starRingEnd ℂ z = -z := by
    apply Complex.ext
    · simp [hz, hlam]
    · simp
  have hdet' : (1 - (-z) • g.Q.map Complex.ofReal).det ≠ 0 := by
    rw [← hconj, det_conj]
    simpa using hdet
  have hs := hm.stability hdet hdet'
  rw [← hconj, stabilityFunction_conj _ _ _ hdet, mul_comm, Complex.mul_conj] at hs
  have hR : ‖stabilityFunction g.Q g.weights z‖ = 1 := by
    have h2 : Complex.normSq (stabilityFunction g.Q g.weights z) = 1 := by exact_mod_cast hs
    rw [Complex.normSq_eq_norm_sq] at h2
    nlinarith [norm_nonneg (stabilityFunction g.Q g.weights z)]
  intro v hv
  obtain ⟨k, -, rfl⟩ := List.mem_map.mp hv
  rw [norm_mul, norm_pow, hR, one_pow, one_mul]

/-- C112: with symmetric nodes of any type `solveDahlquist` keeps the modulus of an oscillation in every step, for every
step size, or raises `LinAlgError`. -/
theorem C112_conserves {M : ℕ} {nt qt : String} (hnt : nt ∈ ["LEGENDRE", "EQUID", "CHEBY-1", "CHEBY-2"])
    (hqt : qt = "LOBATTO" ∨ qt = "GAUSS" ∧ M ≤ 158) (c : Collocation M) (hc : Collocation.new M nt qt 0 1 = .ok c)
    (lam u0 : ℂ) (hlam : lam.re = 0) (tEnd : ℝ) (n : ℕ) (hn : 0 < n) :
    c.toQGenerator.solveDahlquist lam u0 tEnd n = .error .linAlgError ∨
      ∃ u, c.toQGenerator.solveDahlquist lam u0 tEnd n = .ok u ∧ u.length = n + 1 ∧ ∀ v ∈ u, ‖v‖ = ‖u0‖ := by
  by_cases hdet : (1 - (lam * (tEnd / n : ℝ)) • c.Q.map Complex.ofReal).det = 0
  · exact Or.inl ((C30_solveDahlquist_errors c.toQGenerator lam u0 tEnd).1 n hn hdet)
  · have h := C30_solveDahlquist c.toQGenerator lam u0 tEnd n hn hdet
    exact Or.inr ⟨_, h, by simp, conserves c.toQGenerator (symmetric_mirrored hnt hqt c hc) lam u0 hlam tEnd n _ h⟩

/-- C112: with symmetric nodes the order is even: a method that converges with an odd order converges with the next
one. -/
theorem C112_even_order {M : ℕ} {nt qt : String} (hnt : nt ∈ ["LEGENDRE", "EQUID", "CHEBY-1", "CHEBY-2"])
    (hqt : qt = "LOBATTO" ∨ qt = "GAUSS" ∧ M ≤ 158) (c : Collocation M) (hc : Collocation.new M nt qt 0 1 = .ok c)
    (p : ℕ) (hp : Odd p) (lam u0 : ℂ) (tEnd : ℝ) (hlam : lam ≠ 0) (hu0 : u0 ≠ 0) (htEnd : tEnd ≠ 0)
    (hord : ∃ (K : ℝ) (N : ℕ), ∀ n : ℕ, N ≤ n →
      ∃ e, c.toQGenerator.errorDahlquist lam u0 tEnd n = .ok e ∧ e ≤ K / n ^ p) :
    ∃ (K : ℝ) (N : ℕ), ∀ n : ℕ, N ≤ n →
      ∃ e, c.toQGenerator.errorDahlquist lam u0 tEnd n = .ok e ∧ e ≤ K / n ^ (p + 1) := by
  rw [C29_convergence_iff c hc _ lam u0 tEnd hlam hu0 htEnd] at hord ⊢
  have hm := symmetric_mirrored hnt hqt c hc
  intro q hq
  -- the antisymmetric polynomial `(t - 1/2) ^ p`
  set r : ℝ[X] := (X - C (1 / 2)) ^ p with hr
  have hr1 : r.Monic := (monic_X_sub_C _).pow p
  have hrdeg : r.natDegree = p := by rw [hr, natDegree_pow, natDegree_X_sub_C, mul_one]
  have hanti : ∀ t, r.eval (1 - t) = -r.eval t := by
    intro t
    simp only [hr, eval_pow, eval_sub, eval_X, eval_C]
    rw [← hp.neg_pow]
    ring
  have hquad : ∑ j, c.weights j * r.eval (c.nodes j) = 0 := by
    have h1 : ∑ j, c.weights j * r.eval (c.nodes j) = ∑ j : Fin M, c.weights j.rev * r.eval (c.nodes j.rev) :=
      (Equiv.sum_comp Fin.revPerm fun j => c.weights j * r.eval (c.nodes j)).symm
    have h2 : ∑ j : Fin M, c.weights j.rev * r.eval (c.nodes j.rev) = -∑ j, c.weights j * r.eval (c.nodes j) := by
      rw [← Finset.sum_neg_distrib]
      refine Finset.sum_congr rfl fun j _ => ?_
      rw [← hm.weights j, show c.nodes j.rev = 1 - c.nodes j by rw [hm.nodes j]; ring, hanti]
      ring
    linarith
  have hint : ∫ t in (0:ℝ)..1, r.eval t = 0 := by
    have h1 : ∫ t in (0:ℝ)..1, r.eval (1 - t) = ∫ t in (0:ℝ)..1, r.eval t := by
      rw [intervalIntegral.integral_comp_sub_left fun t => r.eval t]
      norm_num
    simp only [hanti, intervalIntegral.integral_neg] at h1
    linarith
  have hsplit : (q - C (q.coeff p) * r).degree < p := by
    rw [degree_lt_iff_coeff_zero]
    intro m hm
    rw [coeff_sub, coeff_C_mul]
    rcases eq_or_lt_of_le hm with rfl | hm
    · have : r.coeff p = 1 := by rw [← hrdeg]; exact hr1.coeff_natDegree
      rw [this]
      ring
    · have h1 : q.coeff m = 0 := (degree_lt_iff_coeff_zero _ _).1 hq m hm
      have h2 : r.coeff m = 0 := coeff_eq_zero_of_natDegree_lt (by omega)
      rw [h1, h2]
      ring
  have h1 := hord _ hsplit
  simp only [eval_sub, eval_mul, eval_C, mul_sub, Finset.sum_sub_distrib] at h1
  rw [intervalIntegral.integral_sub (g := fun t => q.coeff p * r.eval t) (q.continuous.intervalIntegrable _ _)
    ((continuous_const.mul r.continuous).intervalIntegrable _ _), intervalIntegral.integral_const_mul, hint] at h1
  have h2 : ∑ j, c.weights j * (q.coeff p * r.eval (c.nodes j)) = 0 := by
    rw [← mul_zero (q.coeff p), ← hquad, Finset.mul_sum]
    exact Finset.sum_congr rfl fun j _ => by ring
  rw [h2] at h1
  linarith

/-! ## Runge-Kutta classes -/

namespace RKTable

/-- Test for symmetric coefficients. -/
def mirrorOk (T : RKTable) : Bool :=
  (List.range T.c.length).all fun i =>
    decide (T.c.getD i 0 = 1 - T.c.getD (T.c.length - (i + 1)) 0) &&
    decide (T.b.getD i 0 = T.b.getD (T.c.length - (i + 1)) 0) &&
    (List.range T.c.length).all fun j => decide ((T.A.getD i []).getD j 0 =
      T.b.getD (T.c.length - (j + 1)) 0 - (T.A.getD (T.c.length - (i + 1)) []).getD (T.c.length - (j + 1)) 0)

theorem mirrorOk_sound (T : RKTable) (h : T.mirrorOk = true) :
    Mirrored T.toRK.c T.toRK.A T.toRK.b T.toRK.c T.toRK.A T.toRK.b := by
  have h1 : ∀ i : Fin T.toRK.s, T.c.getD i 0 = 1 - T.c.getD (T.c.length - (i + 1)) 0 ∧
      T.b.getD i 0 = T.b.getD (T.c.length - (i + 1)) 0 ∧
      ∀ j : Fin T.toRK.s, (T.A.getD i []).getD j 0 =
        T.b.getD (T.c.length - (j + 1)) 0 - (T.A.getD (T.c.length - (i + 1)) []).getD (T.c.length - (j + 1)) 0 := by
    intro i
    have := List.all_eq_true.mp h i (List.mem_range.mpr i.2)
    simp only [Bool.and_eq_true, decide_eq_true_eq] at this
    exact ⟨this.1.1, this.1.2, fun j => by
      simpa using List.all_eq_true.mp this.2 j (List.mem_range.mpr j.2)⟩
  refine ⟨fun i => ?_, fun i => ?_, fun i j => ?_⟩
  · have := congrArg Quad.toReal (h1 i).1
    rw [Quad.toReal_sub, Quad.toReal_one] at this
    exact this
  · exact congrArg Quad.toReal (h1 i).2.1
  · have := congrArg Quad.toReal ((h1 i).2.2 j)
    rw [Quad.toReal_sub] at this
    exact this

end RKTable

/-- The symmetric classes. -/
def symmetricSchemes : List String := ["MidPoint", "TRAP", "GAUSS_LG"]

theorem rk_mirrored (T : RKTable) (hT : T ∈ Tables.rkSchemes) (hname : T.name ∈ symmetricSchemes) :
    Mirrored T.toRK.c T.toRK.A T.toRK.b T.toRK.c T.toRK.A T.toRK.b := by
  have : (Tables.rkSchemes.all fun T => decide (T.name ∉ symmetricSchemes) || T.mirrorOk) = true := by
    decide +kernel
  exact T.mirrorOk_sound (by simpa [hname] using List.all_eq_true.mp this T hT)

/-- C112: `MidPoint`, `TRAP` and `GAUSS_LG`: a step on `u' = f(t, u)` is undone by a step back. -/
theorem C112_rk_step (T : RKTable) (hT : T ∈ Tables.rkSchemes) (hname : T.name ∈ symmetricSchemes)
    {E : Type*} [AddCommGroup E] [Module ℝ E] (f : ℝ → E → E) (t h : ℝ) (u u1 : E) :
    (∃ Y, RKStep T.toRK.c T.toRK.A T.toRK.b f t h u Y u1) ↔
      ∃ Y, RKStep T.toRK.c T.toRK.A T.toRK.b f (t + h) (-h) u1 Y u := by
  have hm := rk_mirrored T hT hname
  constructor
  · rintro ⟨Y, hY⟩
    exact ⟨_, hm.step hY⟩
  · rintro ⟨Y, hY⟩
    have := hm.symm.step hY
    rw [neg_neg, show t + h + -h = t by ring] at this
    exact ⟨_, this⟩

/-- C112: explicit and implicit Euler undo each other. -/
theorem C112_euler {E : Type*} [AddCommGroup E] [Module ℝ E] (f : ℝ → E → E) (t h : ℝ) (u u1 : E) :
    (∃ Y, RKStep Tables.tFE.toRK.c Tables.tFE.toRK.A Tables.tFE.toRK.b f t h u Y u1) ↔
      ∃ Y, RKStep Tables.tBE.toRK.c Tables.tBE.toRK.A Tables.tBE.toRK.b f (t + h) (-h) u1 Y u := by
  have hm : Mirrored (s := 1) Tables.tFE.toRK.c Tables.tFE.toRK.A Tables.tFE.toRK.b
      Tables.tBE.toRK.c Tables.tBE.toRK.A Tables.tBE.toRK.b := by
    have c1 : Tables.tFE.toRK.c (0 : Fin 1) = 0 := (Quad.toReal_q _ _).trans (by norm_num)
    have b1 : Tables.tFE.toRK.b (0 : Fin 1) = 1 := (Quad.toReal_q _ _).trans (by norm_num)
    have a1 : Tables.tFE.toRK.A (0 : Fin 1) (0 : Fin 1) = 0 := (Quad.toReal_q _ _).trans (by norm_num)
    have c2 : Tables.tBE.toRK.c (0 : Fin 1) = 1 := (Quad.toReal_q _ _).trans (by norm_num)
    have b2 : Tables.tBE.toRK.b (0 : Fin 1) = 1 := (Quad.toReal_q _ _).trans (by norm_num)
    have a2 : Tables.tBE.toRK.A (0 : Fin 1) (0 : Fin 1) = 1 := (Quad.toReal_q _ _).trans (by norm_num)
    refine ⟨fun i => ?_, fun i => ?_, fun i j => ?_⟩
    · rw [Subsingleton.elim i 0]
      exact c2.trans (by rw [show (0 : Fin 1).rev = 0 from rfl, c1]; norm_num)
    · rw [Subsingleton.elim i 0]
      exact b2.trans b1.symm
    · rw [Subsingleton.elim i 0, Subsingleton.elim j 0]
      exact a2.trans (by rw [show (0 : Fin 1).rev = 0 from rfl, b1, a1]; norm_num)
  constructor
  · rintro ⟨Y, hY⟩
    exact ⟨_, hm.step hY⟩
  · rintro ⟨Y, hY⟩
    have := hm.symm.step hY
    rw [neg_neg, show t + h + -h = t by ring] at this
    exact ⟨_, this⟩

/-- C112: with `MidPoint`, `TRAP` and `GAUSS_LG` the modulus of an oscillation is kept by `solveDahlquist`, and the way
back gives the same values in reverse order. -/
theorem C112_rk_solve (T : RKTable) (hT : T ∈ Tables.rkSchemes) (hname : T.name ∈ symmetricSchemes)
    (lam u0 : ℂ) (hlam : lam.re = 0) (tEnd : ℝ) (n : ℕ) (hn : 0 < n) :
    ∃ u v, T.toRK.toQGenerator.solveDahlquist lam u0 tEnd n = .ok u ∧ u.length = n + 1 ∧ (∀ w ∈ u, ‖w‖ = ‖u0‖) ∧
      u.getLast? = some v ∧ T.toRK.toQGenerator.solveDahlquist lam v (-tEnd) n = .ok u.reverse := by
  have hm := rk_mirrored T hT hname
  have hre : ∀ t : ℝ, (lam * (t / n : ℝ)).re ≤ 0 := fun t => by
    rw [Complex.mul_re, Complex.ofReal_re, Complex.ofReal_im, mul_zero, sub_zero, hlam, zero_mul]
  have h1 := C30_solveDahlquist T.toRK.toQGenerator lam u0 tEnd n hn (registered_det T hT (hre tEnd))
  refine ⟨_, _, h1, by simp, conserves _ hm lam u0 hlam tEnd n _ h1, List.getLast?_eq_some_getLast (by simp), ?_⟩
  have h2 := C30_solveDahlquist T.toRK.toQGenerator lam
    (((List.range (n + 1)).map fun k => stabilityFunction T.toRK.A T.toRK.b (lam * (tEnd / n : ℝ)) ^ k * u0).getLast (by simp))
    (-tEnd) n hn (registered_det T hT (hre (-tEnd)))
  rw [← round_trip _ _ hm lam u0 _ tEnd n _ _ h1 (List.getLast?_eq_some_getLast (by simp)) h2]
  exact h2

/-! ## Instances -/

/-- Five equidistant nodes without the ends: an oscillation with large steps, there and back. -/
example : ∃ c : Collocation 5, Collocation.new 5 "EQUID" "GAUSS" 0 1 = .ok c ∧
    (c.toQGenerator.solveDahlquist (40 * Complex.I) 2 1 (3 : ℕ) = .error .linAlgError ∨
      ∃ u, c.toQGenerator.solveDahlquist (40 * Complex.I) 2 1 (3 : ℕ) = .ok u ∧ u.length = 4 ∧ ∀ v ∈ u, ‖v‖ = 2) := by
  obtain ⟨c, hc⟩ := collocation_new_ok (M := 5) (nt := "EQUID") (qt := "GAUSS") (by decide)
    (by decide) ⟨by norm_num, fun h => by simp at h⟩ 0 1
  refine ⟨c, hc, ?_⟩
  have := C112_conserves (by decide) (Or.inr ⟨rfl, by norm_num⟩) c hc (40 * Complex.I) 2 (by simp) 1 3 (by norm_num)
  simpa using this

/-- Four Legendre-Gauss nodes: an oscillation and its way back. -/
example : ∃ (c : Collocation 4) (u : List ℂ) (v : ℂ), Collocation.new 4 "LEGENDRE" "GAUSS" 0 1 = .ok c ∧
    c.toQGenerator.solveDahlquist (7 * Complex.I) 1 1 (2 : ℕ) = .ok u ∧ u.getLast? = some v ∧
    c.toQGenerator.solveDahlquist (7 * Complex.I) v (-1) (2 : ℕ) = .ok u.reverse := by
  obtain ⟨c, hc⟩ := collocation_new_ok (M := 4) (nt := "LEGENDRE") (qt := "GAUSS") (by decide)
    (by decide) ⟨by norm_num, fun h => by simp at h⟩ 0 1
  have hun := unmoved_small (by norm_num) c hc
  obtain ⟨u, hu, hl⟩ := C71_solvable c hc hun (7 * Complex.I) 1 1 (by simp) 2 (by norm_num)
  obtain ⟨v, hv⟩ : ∃ v, u.getLast? = some v := by
    cases h : u.getLast? with
    | none => rw [List.getLast?_eq_none_iff] at h; subst h; simp at hl
    | some v => exact ⟨v, rfl⟩
  obtain ⟨u', hu', -⟩ := C71_solvable c hc hun (7 * Complex.I) v (-1) (by simp) 2 (by norm_num)
  refine ⟨c, u, v, hc, hu, hv, ?_⟩
  rw [← C112_round_trip_symmetric (by decide) (Or.inr ⟨rfl, by norm_num⟩) c hc _ _ v _ _ u u' hu hv hu']
  exact hu'

/-- Right and left Radau nodes. -/
example : ∃ c c' : Collocation 3, Collocation.new 3 "LEGENDRE" "RADAU-RIGHT" 0 1 = .ok c ∧
    Collocation.new 3 "LEGENDRE" "RADAU-LEFT" 0 1 = .ok c' ∧
    Mirrored c.nodes c.Q c.weights c'.nodes c'.Q c'.weights := by
  obtain ⟨c, hc⟩ := collocation_new_ok (M := 3) (nt := "LEGENDRE") (qt := "RADAU-RIGHT") (by decide)
    (by decide) ⟨by norm_num, fun h => by norm_num⟩ 0 1
  obtain ⟨c', hc'⟩ := collocation_new_ok (M := 3) (nt := "LEGENDRE") (qt := "RADAU-LEFT") (by decide)
    (by decide) ⟨by norm_num, fun h => by norm_num⟩ 0 1
  exact ⟨c, c', hc, hc', C112_coefficients ⟨by decide, by decide⟩ c c' hc hc' (unmoved_small (by norm_num) c hc)
    (unmoved_small (by norm_num) c' hc')⟩

/-- Three equidistant nodes: order 3 implies order 4. -/
example : ∃ c : Collocation 3, Collocation.new 3 "EQUID" "LOBATTO" 0 1 = .ok c ∧ ∃ (K : ℝ) (N : ℕ), ∀ n : ℕ, N ≤ n →
    ∃ e, c.toQGenerator.errorDahlquist (-1) 1 1 n = .ok e ∧ e ≤ K / n ^ 4 := by
  obtain ⟨c, hc⟩ := collocation_new_ok (M := 3) (nt := "EQUID") (qt := "LOBATTO") (by decide)
    (by decide) ⟨by norm_num, fun h => by norm_num⟩ 0 1
  exact ⟨c, hc, C112_even_order (by decide) (Or.inl rfl) c hc 3 (by decide) (-1) 1 1 (by norm_num) (by norm_num)
    (by norm_num) (C29_collocation_order_nodes c hc (-1) 1 1)⟩

end QMat
