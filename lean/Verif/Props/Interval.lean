import Verif.Props.OrderSDC
import Verif.Props.ByName
import Verif.Props.Nilpotent
import Verif.Props.CollOrder
import Verif.Props.Integration

/-!
# C113: other time intervals
-/

namespace QMat

open Spec Matrix Polynomial NodesGenerator LagrangeApproximation

/-! ## Lagrange matrices -/

theorem degree_comp_line {p : ℝ[X]} {n : ℕ} (hp : p.degree < n) (s t : ℝ) : (p.comp (C s * X + C t)).degree < n :=
  degree_comp_affine hp s t

/-- A change of the unit and of the origin of time. -/
theorem shift_strictMono {n : ℕ} {x : Fin n → ℝ} (hx : StrictMono x) (s : ℝ) {r : ℝ} (hr : 0 < r) :
    StrictMono fun i => s + r * x i := fun i j h => by
  have := mul_lt_mul_of_pos_left (hx h) hr
  simpa using this

theorem polyInt_line (p : ℝ[X]) (s r a b : ℝ) : ∫ t in (s + r * a)..(s + r * b), p.eval t =
    r * ∫ t in a..b, (p.comp (C r * X + C s)).eval t := by
  have h := intervalIntegral.smul_integral_comp_mul_add (a := a) (b := b) (fun t => p.eval t) r s
  rw [smul_eq_mul] at h
  rw [add_comm s, add_comm s, ← h]
  congr 1
  refine intervalIntegral.integral_congr fun t _ => ?_
  simp [eval_comp]

/-- C113: interpolation matrices do not depend on the unit and the origin of time. -/
theorem C113_interpolation {n m : ℕ} (points : Fin n → ℝ) (hinc : StrictMono points)
    (wc : String) (sw : Bool) (sr dupl : String) (fv) (hcheb : wc = "CHEBFUN" → 2 ≤ n) (s r : ℝ) (hr : 0 < r)
    (L L' : LagrangeApproximation n) (hL : LagrangeApproximation.new points wc sw sr dupl fv = .ok L)
    (hL' : LagrangeApproximation.new (fun i => s + r * points i) wc sw sr dupl fv = .ok L') (times : Fin m → ℝ) :
    L'.getInterpolationMatrix (fun i => s + r * times i) = L.getInterpolationMatrix times := by
  have hinc' := shift_strictMono hinc s hr
  ext i j
  refine congrFun (weights_ext hinc'.injective fun p hp => ?_) j
  have h1 := congrFun (C01_interpolation_exact _ hinc' wc sw sr dupl fv hcheb L' hL' (fun i => s + r * times i) p hp) i
  have h2 := congrFun (C01_interpolation_exact _ hinc wc sw sr dupl fv hcheb L hL times _ (degree_comp_line hp r s)) i
  simp only [Matrix.mulVec, dotProduct, Spec.vals, eval_comp, eval_add, eval_mul, eval_C, eval_X] at h1 h2
  rw [h1, show s + r * times i = r * times i + s by ring, ← h2]
  exact Finset.sum_congr rfl fun j _ => by rw [add_comm s]

/-- C113: integration matrices are multiplied by the unit. -/
theorem C113_integration {n m : ℕ} (hn : 0 < n) (points : Fin n → ℝ) (hinc : StrictMono points)
    (wc : String) (sw : Bool) (sr dupl : String) (fv) (hcheb : wc = "CHEBFUN" → 2 ≤ n) (s r : ℝ) (hr : 0 < r)
    (L L' : LagrangeApproximation n) (hL : LagrangeApproximation.new points wc sw sr dupl fv = .ok L)
    (hL' : LagrangeApproximation.new (fun i => s + r * points i) wc sw sr dupl fv = .ok L')
    (ext : ExternalQuad) (numQuad : String) (hnq : numQuad ∈ ["LEGENDRE_NUMPY", "LEGENDRE_SCIPY", "FEJER"])
    (hext : numQuad ≠ "FEJER" → ext.Exact) (intervals : Fin m → ℝ × ℝ) :
    ∃ Q, L.getIntegrationMatrix ext intervals numQuad = .ok Q ∧
      L'.getIntegrationMatrix ext (fun i => (s + r * (intervals i).1, s + r * (intervals i).2)) numQuad = .ok (r • Q) := by
  have hinc' := shift_strictMono hinc s hr
  obtain ⟨Q, hQ, hex⟩ := C04_integration_exact _ hinc hn wc sw sr dupl fv hcheb L hL ext numQuad hnq hext intervals
  obtain ⟨Q', hQ', hex'⟩ := C04_integration_exact _ hinc' hn wc sw sr dupl fv hcheb L' hL' ext numQuad hnq hext
    (fun i => (s + r * (intervals i).1, s + r * (intervals i).2))
  refine ⟨Q, hQ, ?_⟩
  rw [hQ']
  congr 1
  ext i j
  refine congrFun (weights_ext hinc'.injective (w := Q' i) (w' := (r • Q) i) fun p hp => ?_) j
  have h1 := hex' p hp i
  have h2 := hex _ (degree_comp_line hp r s) i
  simp only at h1
  rw [polyInt_line, ← h2] at h1
  simp only [Matrix.mulVec, dotProduct, Spec.vals, eval_comp, eval_add, eval_mul, eval_C, eval_X] at h1
  rw [h1, Finset.mul_sum]
  refine Finset.sum_congr rfl fun j _ => ?_
  rw [add_comm s, Matrix.smul_apply, smul_eq_mul, mul_assoc]

/-- C113: derivation matrices are divided by the unit and its square. -/
theorem C113_derivative {n : ℕ} (points : Fin n → ℝ) (hinc : StrictMono points)
    (wc : String) (sw : Bool) (sr dupl : String) (fv) (hcheb : wc = "CHEBFUN" → 2 ≤ n) (s r : ℝ) (hr : 0 < r)
    (L L' : LagrangeApproximation n) (hL : LagrangeApproximation.new points wc sw sr dupl fv = .ok L)
    (hL' : LagrangeApproximation.new (fun i => s + r * points i) wc sw sr dupl fv = .ok L') :
    ∃ (h : L.nUniquePoints = n) (h' : L'.nUniquePoints = n) (D1 D2 : Matrix (Fin L.nUniquePoints) (Fin n) ℝ)
      (D1' D2' : Matrix (Fin L'.nUniquePoints) (Fin n) ℝ),
      L.getDerivativeMatrix (.str "ALL") = .ok (.pair D1 D2) ∧
      L'.getDerivativeMatrix (.str "ALL") = .ok (.pair D1' D2') ∧
      ∀ i j, r * D1' (Fin.cast h'.symm i) j = D1 (Fin.cast h.symm i) j ∧
        r ^ 2 * D2' (Fin.cast h'.symm i) j = D2 (Fin.cast h.symm i) j := by
  have hinc' := shift_strictMono hinc s hr
  obtain ⟨h, D1, D2, -, -, hD, hex, -⟩ := C07_derivative_exact _ hinc wc sw sr dupl fv hcheb L hL
  obtain ⟨h', D1', D2', -, -, hD', hex', -⟩ := C07_derivative_exact _ hinc' wc sw sr dupl fv hcheb L' hL'
  refine ⟨h, h', D1, D2, D1', D2', hD, hD', fun i j => ?_⟩
  have d1 : ∀ p : ℝ[X], derivative (p.comp (C r * X + C s)) = C r * (derivative p).comp (C r * X + C s) := by
    intro p
    rw [derivative_comp]
    simp
  have key : ∀ p : ℝ[X], p.degree < n →
      ∑ j, r * D1' (Fin.cast h'.symm i) j * p.eval (s + r * points j) =
        ∑ j, D1 (Fin.cast h.symm i) j * p.eval (s + r * points j) ∧
      ∑ j, r ^ 2 * D2' (Fin.cast h'.symm i) j * p.eval (s + r * points j) =
        ∑ j, D2 (Fin.cast h.symm i) j * p.eval (s + r * points j) := by
    intro p hp
    obtain ⟨a1, a2⟩ := hex' p hp (Fin.cast h'.symm i)
    obtain ⟨b1, b2⟩ := hex _ (degree_comp_line hp r s) (Fin.cast h.symm i)
    rw [d1] at b1 b2
    rw [derivative_C_mul, d1] at b2
    simp only [Matrix.mulVec, dotProduct, Spec.vals, eval_comp, eval_add, eval_mul, eval_C, eval_X, Fin.cast_cast,
      Fin.cast_eq_self] at a1 a2 b1 b2
    simp only [add_comm _ s] at b1 b2
    constructor
    · rw [b1, ← a1, Finset.mul_sum]
      exact Finset.sum_congr rfl fun j _ => by ring
    · rw [b2, ← a2, Finset.mul_sum, Finset.mul_sum]
      exact Finset.sum_congr rfl fun j _ => by ring
  exact ⟨congrFun (weights_ext hinc'.injective fun p hp => (key p hp).1) j,
    congrFun (weights_ext hinc'.injective fun p hp => (key p hp).2) j⟩

/-! ## Collocation -/

/-- The nodes on `[a, b]` are the ones of `getNodes`, not moved to an end by the test of closeness. -/
def UnmovedOn {M : ℕ} (nt qt : String) (a b : ℝ) (c : Collocation M) : Prop :=
  ∃ x, getNodes ⟨nt, qt⟩ M = .ok x ∧ ∀ i, c.nodes i = a + (b - a) * ((x i + 1) / 2)

variable {M : ℕ} {nt qt : String} {a b : ℝ}

/-- `LOBATTO` nodes, on every interval. -/
theorem unmovedOn_lobatto (c : Collocation M) (hc : Collocation.new M nt "LOBATTO" a b = .ok c) :
    UnmovedOn nt "LOBATTO" a b c := by
  obtain ⟨x, hM, h⟩ := collocation_spec hc
  exact ⟨x, h.getNodes, nodes_unsnapped c hc x h.getNodes hM (Or.inl (h.first (Or.inr rfl)))
    (Or.inl (h.last (Or.inr rfl)))⟩

/-- The types whose order is above the number of nodes, on intervals that are not tiny. -/
theorem unmovedOn_wide (hw : Wide M a b) (hB : BonusType nt qt) (c : Collocation M)
    (hc : Collocation.new M nt qt a b = .ok c) : UnmovedOn nt qt a b c := by
  obtain ⟨x, hM, h⟩ := collocation_spec hc
  exact ⟨x, h.getNodes, unsnapped_of_wide hw c hc hB x h.getNodes⟩

theorem nodes_line {c c' : Collocation M} (hun : UnmovedOn nt qt 0 1 c) (hun' : UnmovedOn nt qt a b c') (i : Fin M) :
    c'.nodes i = a + (b - a) * c.nodes i := by
  obtain ⟨x, hx, h⟩ := hun
  obtain ⟨x', hx', h'⟩ := hun'
  rw [hx] at hx'
  cases hx'
  rw [h, h']
  ring

/-- C113: `Collocation` on `[a, b]` is `Collocation` on `[0, 1]` in another unit. -/
theorem C113_collocation (hab : a < b) (c c' : Collocation M) (hc : Collocation.new M nt qt 0 1 = .ok c)
    (hc' : Collocation.new M nt qt a b = .ok c') (hun : UnmovedOn nt qt 0 1 c) (hun' : UnmovedOn nt qt a b c') :
    (∀ i, c'.nodes i = a + (b - a) * c.nodes i) ∧ (∀ i, c'.weights i = (b - a) * c.weights i) ∧
      c'.Q = (b - a) • c.Q ∧ ∃ S, c.S = .ok S ∧ c'.S = .ok ((b - a) • S) := by
  obtain ⟨x, hM, h⟩ := collocation_spec hc
  obtain ⟨x', hM', h'⟩ := collocation_spec hc'
  have hn := nodes_line hun hun'
  have hinj := (h'.strictMono hab).injective
  have hcomp : ∀ (p : ℝ[X]) j, (p.comp (C (b - a) * X + C a)).eval (c.nodes j) = p.eval (c'.nodes j) := by
    intro p j
    rw [hn, eval_comp]
    simp [add_comm]
  have hQ : c'.Q = (b - a) • c.Q := by
    ext i j
    refine congrFun (weights_ext hinj (w := c'.Q i) (w' := ((b - a) • c.Q) i) fun p hp => ?_) j
    have h1 : ∑ j, c'.Q i j * p.eval (c'.nodes j) = ∫ t in a..(c'.nodes i), p.eval t := h'.Q_exact hab p hp i
    have h2 : ∑ j, c.Q i j * (p.comp (C (b - a) * X + C a)).eval (c.nodes j) =
      ∫ t in (0:ℝ)..(c.nodes i), (p.comp (C (b - a) * X + C a)).eval t :=
        h.Q_exact (by norm_num) _ (degree_comp_line hp _ _) i
    have h3 := polyInt_line p a (b - a) 0 (c.nodes i)
    rw [mul_zero, add_zero, ← hn] at h3
    rw [h1, h3, ← h2, Finset.mul_sum]
    exact Finset.sum_congr rfl fun j _ => by rw [hcomp, Matrix.smul_apply, smul_eq_mul]; ring
  refine ⟨hn, fun i => ?_, hQ, _, C25_S_override (by norm_num) c hc, ?_⟩
  · refine congrFun (weights_ext hinj (w := c'.weights) (w' := fun i => (b - a) * c.weights i) fun p hp => ?_) i
    have h1 : ∑ j, c'.weights j * p.eval (c'.nodes j) = ∫ t in a..b, p.eval t := h'.weights_exact hab p hp
    have h2 : ∑ j, c.weights j * (p.comp (C (b - a) * X + C a)).eval (c.nodes j) =
      ∫ t in (0:ℝ)..1, (p.comp (C (b - a) * X + C a)).eval t := h.weights_exact (by norm_num) _ (degree_comp_line hp _ _)
    have h3 := polyInt_line p a (b - a) 0 1
    rw [mul_zero, add_zero, mul_one, show a + (b - a) = b by ring] at h3
    rw [h1, h3, ← h2, Finset.mul_sum]
    exact Finset.sum_congr rfl fun j _ => by rw [hcomp]; ring
  · rw [C25_S_override hab c' hc', hQ, qgenS, Matrix.mul_smul, qgenS]

/-! ## Coefficients from `Q` -/

theorem ldu_smul {n : ℕ} (A : Matrix (Fin n) (Fin n) ℝ) (r : ℝ) (hr : r ≠ 0) :
    ∃ s s', lduFactorization A = .ok s ∧ lduFactorization (r • A) = .ok s' ∧ s'.D = r • s.D := by
  obtain ⟨s, hs, h⟩ := ldu_inv A
  obtain ⟨s', hs', h'⟩ := ldu_inv (r • A)
  refine ⟨s, s', hs, hs', ?_⟩
  have key : ∀ (t : ℕ) (i : Fin n), (i : ℕ) = t → s'.D i i = r * s.D i i ∧ (∀ j, s'.L j i = s.L j i) ∧
      ∀ j, s'.U i j = s.U i j := by
    intro t
    induction t using Nat.strong_induction_on with
    | _ t ih =>
      intro i hi
      have hdot : ∀ a b, lduDot s' i a b = r * lduDot s i a b := by
        intro a b
        unfold lduDot
        rw [Finset.mul_sum]
        refine Finset.sum_congr rfl fun k hk => ?_
        have hk' : k < i := (Finset.mem_filter.1 hk).2
        obtain ⟨h1, h2, h3⟩ := ih k (by rw [← hi]; exact hk') k rfl
        rw [h1, h2, h3]
        ring
      have hD : s'.D i i = r * s.D i i := by
        rw [h'.D i i.2, h.D i i.2, hdot, Matrix.smul_apply, smul_eq_mul]
        ring
      refine ⟨hD, fun j => ?_, fun j => ?_⟩
      · rcases lt_trichotomy i j with hij | hij | hij
        · rw [h'.L i j i.2 hij, h.L i j i.2 hij, hdot, hD, Matrix.smul_apply, smul_eq_mul, ← mul_sub,
            mul_div_mul_left _ _ hr]
        · rw [hij, h'.Ldiag, h.Ldiag]
        · rw [h'.Lzero j i hij, h.Lzero j i hij]
      · rcases lt_trichotomy i j with hij | hij | hij
        · rw [h'.U i j i.2 hij, h.U i j i.2 hij, hdot, hD, Matrix.smul_apply, smul_eq_mul, ← mul_sub,
            mul_div_mul_left _ _ hr]
        · rw [hij, h'.Udiag, h.Udiag]
        · rw [h'.Uzero i j hij, h.Uzero i j hij]
  ext i j
  by_cases hij : i = j
  · subst hij
    exact (key i i rfl).1
  · rw [h'.diag i j hij, Matrix.smul_apply, h.diag i j hij, smul_zero]

/-- C113: coefficients computed from `Q` go with the interval. -/
theorem C113_from_Q (ext : ExternalNum) (hab : a < b) (c c' : Collocation M)
    (hc : Collocation.new M nt qt 0 1 = .ok c) (hc' : Collocation.new M nt qt a b = .ok c')
    (hun : UnmovedOn nt qt 0 1 c) (hun' : UnmovedOn nt qt a b c') (k : Option ℤ) :
    ∀ name ∈ ["PIC", "Exact", "QPar", "GS", "LDU"], ∃ A : Matrix (Fin M) (Fin M) ℝ,
      getQD ext name (kwColl c) k = .ok ⟨M, A⟩ ∧ getQD ext name (kwColl c') k = .ok ⟨M, (b - a) • A⟩ := by
  have hQ := (C113_collocation hab c c' hc hc' hun hun').2.2.1
  intro name hname
  simp only [List.mem_cons, List.not_mem_nil, or_false] at hname
  rcases hname with rfl | rfl | rfl | rfl | rfl
  · refine ⟨0, rfl, ?_⟩
    rw [smul_zero]
    rfl
  · refine ⟨c.Q, rfl, ?_⟩
    rw [← hQ]
    rfl
  · refine ⟨computeQPar c.Q, rfl, ?_⟩
    have : (b - a) • computeQPar c.Q = computeQPar c'.Q := by
      rw [hQ]
      ext i j
      by_cases hij : i = j
      · subst hij; simp [computeQPar]
      · simp [computeQPar, hij]
    rw [this]
    rfl
  · refine ⟨computeGS c.Q, rfl, ?_⟩
    have : (b - a) • computeGS c.Q = computeGS c'.Q := by
      rw [hQ]
      ext i j
      simp [computeGS]
    rw [this]
    rfl
  · obtain ⟨s, s', hs, hs', hD⟩ := ldu_smul c.Q (b - a) (sub_ne_zero.2 hab.ne')
    have e : ∀ (d : Collocation M) (t : LDUState M), lduFactorization d.Q = .ok t →
        getQD ext "LDU" (kwColl d) k = .ok ⟨M, t.D⟩ := by
      intro d t ht
      have h1 : computeLDU d.Q = .ok t.D := by
        unfold computeLDU
        rw [ht]
        rfl
      change (do
        let A ← computeLDU d.Q
        return (⟨M, A⟩ : Σ n, Matrix (Fin n) (Fin n) ℝ)) = _
      rw [h1]
      rfl
    refine ⟨s.D, e c s hs, ?_⟩
    rw [← hD]
    exact e c' s' (by rw [hQ]; exact hs')

/-! ## Coefficients from the nodes -/

theorem time_line {nodes : Fin M → ℝ} {tLeft s r : ℝ} {g g' : TimeStepping M}
    (hg : TimeStepping.new nodes tLeft = .ok g)
    (hg' : TimeStepping.new (fun i => s + r * nodes i) (s + r * tLeft) = .ok g') (i : Fin M) :
    g'.deltas i = r * g.deltas i := by
  rw [deltas_eq hg, deltas_eq hg']
  unfold prev
  split_ifs <;> ring

theorem atPos_smul {v w : Fin M → ℝ} {r : ℝ} (h : ∀ i, w i = r * v i) (k : ℕ) : atPos w k = r * atPos v k := by
  unfold atPos
  split_ifs
  · exact h _
  · ring

theorem time_scaled {nodes : Fin M → ℝ} {tLeft s r : ℝ} {g g' : TimeStepping M}
    (hg : TimeStepping.new nodes tLeft = .ok g)
    (hg' : TimeStepping.new (fun i => s + r * nodes i) (s + r * tLeft) = .ok g') :
    g'.computeBE = r • g.computeBE ∧ g'.computeFE = r • g.computeFE ∧ g'.computeTRAP = r • g.computeTRAP ∧
      (∀ i, g'.dTauFE i = r * g.dTauFE i) ∧ ∀ i, g'.dTauTRAP i = r * g.dTauTRAP i := by
  have hd := time_line hg hg'
  have hBE : g'.computeBE = r • g.computeBE := by
    ext i j
    rw [Matrix.smul_apply, g'.computeBE_apply, g.computeBE_apply, smul_eq_mul]
    split_ifs
    · exact hd j
    · ring
  have hFE : g'.computeFE = r • g.computeFE := by
    ext i j
    rw [Matrix.smul_apply, g'.computeFE_apply, g.computeFE_apply, smul_eq_mul]
    split_ifs
    · exact atPos_smul hd _
    · ring
  refine ⟨hBE, hFE, ?_, fun i => ?_, fun i => ?_⟩
  · ext i j
    rw [Matrix.smul_apply, g'.computeTRAP_eq, g.computeTRAP_eq, hBE, hFE, Matrix.smul_apply, Matrix.smul_apply]
    simp only [smul_eq_mul]
    ring
  · simp only [TimeStepping.dTauFE, mul_zero, zero_add]
    exact atPos_smul hd _
  · simp only [TimeStepping.dTauTRAP, mul_zero, zero_add]
    rw [atPos_smul hd]
    ring

/-- C113: `BE`, `FE` and `TRAP` with given nodes and `tLeft`: coefficients and `dTau` go with the unit and do not depend
on the origin of time. -/
theorem C113_timestepping (nodes : Fin M → ℝ) (hM : 0 < M) (tLeft s r : ℝ) :
    ∀ C ∈ [(TimeStepping.computeBE, fun _ _ => 0), (TimeStepping.computeFE, TimeStepping.dTauFE),
      ((TimeStepping.computeTRAP, TimeStepping.dTauTRAP) : (TimeStepping M → Matrix (Fin M) (Fin M) ℝ) × (TimeStepping M → Fin M → ℝ))],
    ∃ g g', TimeStepping.new nodes tLeft = .ok g ∧
      TimeStepping.new (fun i => s + r * nodes i) (s + r * tLeft) = .ok g' ∧
      C.1 g' = r • C.1 g ∧ ∀ i, C.2 g' i = r * C.2 g i := by
  obtain ⟨g, hg⟩ := (C38_constructor nodes tLeft).1.2 hM
  obtain ⟨g', hg'⟩ := (C38_constructor (fun i => s + r * nodes i) (s + r * tLeft)).1.2 hM
  obtain ⟨h1, h2, h3, h4, h5⟩ := time_scaled hg hg'
  intro C hC
  simp only [List.mem_cons, List.not_mem_nil, or_false] at hC
  rcases hC with rfl | rfl | rfl
  · exact ⟨g, g', hg, hg', h1, fun i => by simp⟩
  · exact ⟨g, g', hg, hg', h2, h4⟩
  · exact ⟨g, g', hg, hg', h3, h5⟩

/-- C113: with `qGen=coll` on `[0, b]` the coefficients computed from the nodes go with the interval. -/
theorem C113_from_nodes (ext : ExternalNum) (hb : 0 < b) (c c' : Collocation M)
    (hc : Collocation.new M nt qt 0 1 = .ok c) (hc' : Collocation.new M nt qt 0 b = .ok c')
    (hun : UnmovedOn nt qt 0 1 c) (hun' : UnmovedOn nt qt 0 b c') (k : Option ℤ) :
    ∀ name ∈ ["BE", "FE", "TRAP", "BEPAR", "TRAPAR", "MIN-SR-NS", "DNODES", "DNODES-2", "DNODES-3", "DNODES-4",
        "DNODES-5", "Jumper", "FlexJumper"],
      (∀ A : Matrix (Fin M) (Fin M) ℝ, getQD ext name (kwColl c) k = .ok ⟨M, A⟩ →
        getQD ext name (kwColl c') k = .ok ⟨M, b • A⟩) ∧
      ∀ e, getQD ext name (kwColl c) k = .error e → getQD ext name (kwColl c') k = .error e := by
  obtain ⟨x, hM, -⟩ := collocation_spec hc
  have hn : c'.nodes = fun i => 0 + b * c.nodes i := by
    funext i
    rw [nodes_line hun hun' i, sub_zero]
  obtain ⟨g, hg⟩ := (C38_constructor c.nodes 0).1.2 hM
  obtain ⟨g', hg'⟩ := (C38_constructor c'.nodes 0).1.2 hM
  obtain ⟨a1, a2, a3, a4, a5⟩ := getQD_time ext c k g hg
  obtain ⟨b1, b2, b3, b4, b5⟩ := getQD_time ext c' k g' hg'
  have hgn := (g.new_ok hg).2.1
  have hgn' := (g'.new_ok hg').2.1
  have hgt := (g.new_ok hg).2.2.1
  have hgt' := (g'.new_ok hg').2.2.1
  rw [hn] at hg'
  obtain ⟨h1, h2, h3, -, -⟩ := time_scaled (s := 0) (r := b) hg (by rw [mul_zero, add_zero]; exact hg')
  have fin : ∀ (name : String) (A A' : Matrix (Fin M) (Fin M) ℝ), getQD ext name (kwColl c) k = .ok ⟨M, A⟩ →
      getQD ext name (kwColl c') k = .ok ⟨M, A'⟩ → A' = b • A →
      (∀ A : Matrix (Fin M) (Fin M) ℝ, getQD ext name (kwColl c) k = .ok ⟨M, A⟩ →
        getQD ext name (kwColl c') k = .ok ⟨M, b • A⟩) ∧
      ∀ e, getQD ext name (kwColl c) k = .error e → getQD ext name (kwColl c') k = .error e := by
    intro name A A' hA hA' e
    refine ⟨fun B hB => ?_, fun e he => ?_⟩
    · rw [hA] at hB
      cases hB
      rw [hA', e]
    · rw [hA] at he
      cases he
  have div : ∀ y : ℝ, (Matrix.of fun r s => Matrix.diagonal c'.nodes r s / y) =
      b • (Matrix.of fun r s => Matrix.diagonal c.nodes r s / y : Matrix (Fin M) (Fin M) ℝ) := by
    intro y
    ext i j
    by_cases hij : i = j
    · subst hij
      simp [hn]
      ring
    · simp [hij]
  intro name hname
  simp only [List.mem_cons, List.not_mem_nil, or_false] at hname
  rcases hname with rfl | rfl | rfl | rfl | rfl | rfl | rfl | rfl | rfl | rfl | rfl | rfl | rfl
  · exact fin _ _ _ a1 b1 h1
  · exact fin _ _ _ a2 b2 h2
  · exact fin _ _ _ a3 b3 h3
  · refine fin _ _ _ a4 b4 ?_
    ext i j
    simp only [TimeStepping.computeBEPAR, of_apply, Matrix.smul_apply, hgn, hgn', hgt, hgt', sub_zero, smul_eq_mul]
    by_cases hij : i = j
    · subst hij; simp [hn]
    · simp [hij]
  · refine fin _ _ _ a5 b5 ?_
    ext i j
    simp only [TimeStepping.computeTRAPAR, of_apply, Matrix.smul_apply, hgn, hgn', hgt, hgt', sub_zero, smul_eq_mul]
    by_cases hij : i = j
    · subst hij; simp [hn]; ring
    · simp [hij]
  · exact fin _ _ _ rfl rfl (div _)
  · exact fin _ _ _ rfl rfl (div _)
  · exact fin _ _ _ rfl rfl (div _)
  · exact fin _ _ _ rfl rfl (div _)
  · exact fin _ _ _ rfl rfl (div _)
  · exact fin _ _ _ rfl rfl (div _)
  · have e : ∀ d : Collocation M, getQD ext "Jumper" (kwColl d) k = (do
        let A ← computeJumper d.nodes k
        return (⟨M, A⟩ : Σ n, Matrix (Fin n) (Fin n) ℝ)) := fun d => rfl
    rw [e c, e c']
    unfold computeJumper
    cases hk : checkK k with
    | error er => exact ⟨fun A hA => (by cases hA), fun er' he => he⟩
    | ok k' =>
      refine ⟨fun A hA => ?_, fun er' he => by cases he⟩
      cases hA
      exact congrArg (fun B => (Except.ok ⟨M, B⟩ : PyResult (Σ n, Matrix (Fin n) (Fin n) ℝ))) (div _)
  · have e : ∀ d : Collocation M, getQD ext "FlexJumper" (kwColl d) k = (do
        let A ← computeFlexJumper d.nodes k
        return (⟨M, A⟩ : Σ n, Matrix (Fin n) (Fin n) ℝ)) := fun d => rfl
    rw [e c, e c']
    unfold computeFlexJumper
    cases hk : checkK k with
    | error er => exact ⟨fun A hA => (by cases hA), fun er' he => he⟩
    | ok k' =>
      refine ⟨fun A hA => ?_, fun er' he => by cases he⟩
      cases hA
      exact congrArg (fun B => (Except.ok ⟨M, B⟩ : PyResult (Σ n, Matrix (Fin n) (Fin n) ℝ))) (div _)

/-- C113, finding: `tLeft` of the collocation object is not used: with `qGen=coll` on `[a, b]`, `a ≠ 0`, the first row of the
coefficients belongs to an interval that starts at 0, and the matrix is not the one on `[0, 1]` in another unit. -/
theorem C113_shift_fails (ext : ExternalNum) (hab : a < b) (ha : a ≠ 0) (c c' : Collocation M)
    (hc : Collocation.new M nt qt 0 1 = .ok c) (hc' : Collocation.new M nt qt a b = .ok c')
    (hun : UnmovedOn nt qt 0 1 c) (hun' : UnmovedOn nt qt a b c') (k : Option ℤ) :
    ∀ name ∈ ["BE", "TRAP", "BEPAR", "TRAPAR", "MIN-SR-NS", "DNODES"],
      ∃ A A' : Matrix (Fin M) (Fin M) ℝ, getQD ext name (kwColl c) k = .ok ⟨M, A⟩ ∧
        getQD ext name (kwColl c') k = .ok ⟨M, A'⟩ ∧ A' ≠ (b - a) • A := by
  obtain ⟨x, hM, -⟩ := collocation_spec hc
  have hn := nodes_line hun hun' ⟨0, hM⟩
  obtain ⟨g, hg⟩ := (C38_constructor c.nodes 0).1.2 hM
  obtain ⟨g', hg'⟩ := (C38_constructor c'.nodes 0).1.2 hM
  obtain ⟨a1, a2, a3, a4, a5⟩ := getQD_time ext c k g hg
  obtain ⟨b1, b2, b3, b4, b5⟩ := getQD_time ext c' k g' hg'
  have hd : g.deltas ⟨0, hM⟩ = c.nodes ⟨0, hM⟩ := by rw [deltas_eq hg]; simp [prev]
  have hd' : g'.deltas ⟨0, hM⟩ = c'.nodes ⟨0, hM⟩ := by rw [deltas_eq hg']; simp [prev]
  have hMR : (M:ℝ) ≠ 0 := by exact_mod_cast hM.ne'
  have key : ∀ (A A' : Matrix (Fin M) (Fin M) ℝ) (y : ℝ), y ≠ 0 → A ⟨0, hM⟩ ⟨0, hM⟩ = c.nodes ⟨0, hM⟩ / y →
      A' ⟨0, hM⟩ ⟨0, hM⟩ = c'.nodes ⟨0, hM⟩ / y → A' ≠ (b - a) • A := by
    intro A A' y hy h1 h2 h3
    have := congrFun (congrFun h3 ⟨0, hM⟩) ⟨0, hM⟩
    rw [Matrix.smul_apply, h1, h2, hn, smul_eq_mul] at this
    field_simp at this
    exact ha (by linarith)
  intro name hname
  simp only [List.mem_cons, List.not_mem_nil, or_false] at hname
  rcases hname with rfl | rfl | rfl | rfl | rfl | rfl
  · exact ⟨_, _, a1, b1, key _ _ 1 one_ne_zero (by rw [g.computeBE_apply, if_pos le_rfl, hd, div_one])
      (by rw [g'.computeBE_apply, if_pos le_rfl, hd', div_one])⟩
  · exact ⟨_, _, a3, b3, key _ _ 2 two_ne_zero
      (by rw [g.computeTRAP_eq, g.computeBE_apply, g.computeFE_apply, if_pos le_rfl, if_neg (lt_irrefl _), hd, add_zero])
      (by rw [g'.computeTRAP_eq, g'.computeBE_apply, g'.computeFE_apply, if_pos le_rfl, if_neg (lt_irrefl _), hd',
        add_zero])⟩
  · exact ⟨_, _, a4, b4, key _ _ 1 one_ne_zero
      (by simp [TimeStepping.computeBEPAR, (g.new_ok hg).2.1, (g.new_ok hg).2.2.1])
      (by simp [TimeStepping.computeBEPAR, (g'.new_ok hg').2.1, (g'.new_ok hg').2.2.1])⟩
  · exact ⟨_, _, a5, b5, key _ _ 2 two_ne_zero
      (by simp [TimeStepping.computeTRAPAR, (g.new_ok hg).2.1, (g.new_ok hg).2.2.1])
      (by simp [TimeStepping.computeTRAPAR, (g'.new_ok hg').2.1, (g'.new_ok hg').2.2.1])⟩
  · exact ⟨computeMINSRNS c.nodes, computeMINSRNS c'.nodes, rfl, rfl, key _ _ M hMR (by simp [computeMINSRNS])
      (by simp [computeMINSRNS])⟩
  · exact ⟨computeDNODES 1 c.nodes, computeDNODES 1 c'.nodes, rfl, rfl, key _ _ 1 one_ne_zero (by simp [computeDNODES])
      (by simp [computeDNODES])⟩

/-- C113, finding: tabulated coefficients, `MIN-SR-S` and `MIN-SR-FLEX` are the same for every interval, not multiplied by its
length. -/
theorem C113_length_fails (ext : ExternalNum) (c c' : Collocation M) (hc : Collocation.new M nt qt 0 1 = .ok c)
    (hc' : Collocation.new M nt qt a b = .ok c') (k : Option ℤ) :
    ∀ name ∈ ["MIN3", "VDHS", "MIN-SR-S", "MIN-SR-FLEX"],
      getQD ext name (kwColl c') k = getQD ext name (kwColl c) k := by
  intro name hname
  obtain ⟨h1, h2⟩ := coll_types hc
  obtain ⟨h1', h2'⟩ := coll_types hc'
  simp only [List.mem_cons, List.not_mem_nil, or_false] at hname
  have e : ∀ (d : Collocation M), d.nodeType = nt → d.quadType = qt →
      getQD ext "MIN3" (kwColl d) k = (do
        let A ← computeFromTable MinCoeffs.MIN3 M nt qt
        return (⟨M, A⟩ : Σ n, Matrix (Fin n) (Fin n) ℝ)) ∧
      getQD ext "VDHS" (kwColl d) k = (do
        let A ← computeFromTable MinCoeffs.MIN_VDHS M nt qt
        return (⟨M, A⟩ : Σ n, Matrix (Fin n) (Fin n) ℝ)) := by
    rintro d rfl rfl
    exact ⟨rfl, rfl⟩
  rcases hname with rfl | rfl | rfl | rfl
  · rw [(e c' h1' h2').1, (e c h1 h2).1]
  · rw [(e c' h1' h2').2, (e c h1 h2).2]
  · exact (C46_interval_ignored_fails ext c' c hc' hc k).2
  · exact (C46_interval_ignored_fails ext c' c hc' hc k).1

/-! ## Instances -/

/-- Three Radau nodes on `[0, 2]` and on `[5, 7]`. -/
example (ext : ExternalNum) : ∃ c c' c'' : Collocation 3, Collocation.new 3 "LEGENDRE" "RADAU-RIGHT" 0 1 = .ok c ∧
    Collocation.new 3 "LEGENDRE" "RADAU-RIGHT" 0 2 = .ok c' ∧ Collocation.new 3 "LEGENDRE" "RADAU-RIGHT" 5 7 = .ok c'' ∧
    c''.Q = (2:ℝ) • c.Q ∧
    (∀ A : Matrix (Fin 3) (Fin 3) ℝ, getQD ext "BE" (kwColl c) none = .ok ⟨3, A⟩ →
      getQD ext "BE" (kwColl c') none = .ok ⟨3, (2:ℝ) • A⟩) ∧
    ∃ A A' : Matrix (Fin 3) (Fin 3) ℝ, getQD ext "BE" (kwColl c) none = .ok ⟨3, A⟩ ∧
        getQD ext "BE" (kwColl c'') none = .ok ⟨3, A'⟩ ∧ A' ≠ (2:ℝ) • A := by
  have hv : ValidSize "RADAU-RIGHT" 3 := ⟨by norm_num, fun _ => by norm_num⟩
  obtain ⟨c, hc⟩ := collocation_new_ok (M := 3) (nt := "LEGENDRE") (qt := "RADAU-RIGHT") (by decide) (by decide) hv 0 1
  obtain ⟨c', hc'⟩ := collocation_new_ok (M := 3) (nt := "LEGENDRE") (qt := "RADAU-RIGHT") (by decide) (by decide) hv 0 2
  obtain ⟨c'', hc''⟩ := collocation_new_ok (M := 3) (nt := "LEGENDRE") (qt := "RADAU-RIGHT") (by decide) (by decide) hv 5 7
  have hB : BonusType "LEGENDRE" "RADAU-RIGHT" := by simp [BonusType]
  have u := unmovedOn_wide (by norm_num [Wide]) hB c hc
  have u' := unmovedOn_wide (by norm_num [Wide]) hB c' hc'
  have u'' := unmovedOn_wide (by norm_num [Wide, max_def]) hB c'' hc''
  refine ⟨c, c', c'', hc, hc', hc'', ?_, ?_, ?_⟩
  · rw [(C113_collocation (by norm_num) c c'' hc hc'' u u'').2.2.1]
    norm_num
  · exact (C113_from_nodes ext (by norm_num) c c' hc hc' u u' none "BE" (by simp)).1
  · obtain ⟨A, A', h1, h2, h3⟩ := C113_shift_fails ext (by norm_num) (by norm_num) c c'' hc hc'' u u'' none "BE" (by simp)
    refine ⟨A, A', h1, h2, ?_⟩
    rwa [show ((7:ℝ) - 5) = 2 by norm_num] at h3

/-- Three points in hours and in seconds. -/
example : ∃ L L' : LagrangeApproximation 3, LagrangeApproximation.new ![(0:ℝ), 1, 3] = .ok L ∧
    LagrangeApproximation.new (fun i => (100:ℝ) + 3600 * ![(0:ℝ), 1, 3] i) = .ok L' ∧
    L'.getInterpolationMatrix (fun i : Fin 2 => (100:ℝ) + 3600 * ![(2:ℝ), 5] i) = L.getInterpolationMatrix ![(2:ℝ), 5] := by
  have hinc : StrictMono ![(0:ℝ), 1, 3] := by
    refine Fin.strictMono_iff_lt_succ.mpr fun j => ?_
    fin_cases j
    · norm_num
    · change (1:ℝ) < 3
      norm_num
  obtain ⟨L, hL⟩ := C01_constructor_total (by norm_num) ![(0:ℝ), 1, 3] "AUTO" false "MAX" "USE_LEFT"
    ⟨by simp, by simp, by simp, by simp⟩
  obtain ⟨L', hL'⟩ := C01_constructor_total (by norm_num) (fun i => (100:ℝ) + 3600 * ![(0:ℝ), 1, 3] i) "AUTO" false "MAX" "USE_LEFT"
    ⟨by simp, by simp, by simp, by simp⟩
  exact ⟨L, L', hL, hL', C113_interpolation _ hinc _ _ _ _ _ (by simp) 100 3600 (by norm_num) L L' hL hL' _⟩

end QMat
