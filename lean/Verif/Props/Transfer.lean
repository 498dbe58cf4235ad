import Verif.Props.CollOrder
import Verif.Props.Integration

/-!
# C115: matrices of different point sets and collocation methods fit together
-/

namespace QMat

open Spec Matrix Polynomial NodesGenerator LagrangeApproximation

/-- `L` is a `LagrangeApproximation(points, ...)` with increasing points and any options. -/
def Built {n : ℕ} (points : Fin n → ℝ) (L : LagrangeApproximation n) : Prop :=
  StrictMono points ∧ ∃ wc sw sr dupl fv, (wc = "CHEBFUN" → 2 ≤ n) ∧
    LagrangeApproximation.new points wc sw sr dupl fv = .ok L

section

variable {n m r : ℕ} {x : Fin n → ℝ} {x' : Fin m → ℝ} {L : LagrangeApproximation n} {L' : LagrangeApproximation m}

theorem Built.interpolates (h : Built x L) (times : Fin r → ℝ) (p : ℝ[X]) (hp : p.degree < n) :
    L.getInterpolationMatrix times *ᵥ vals p x = vals p times := by
  obtain ⟨hx, wc, sw, sr, dupl, fv, hc, hL⟩ := h
  exact C01_interpolation_exact x hx wc sw sr dupl fv hc L hL times p hp

/-- Matrices that agree on the values of polynomials are equal. -/
theorem matrix_ext (hx : StrictMono x) {A B : Matrix (Fin r) (Fin n) ℝ}
    (h : ∀ p : ℝ[X], p.degree < n → A *ᵥ vals p x = B *ᵥ vals p x) : A = B := by
  ext i j
  exact congrFun (weights_ext hx.injective (w := A i) (w' := B i) fun p hp => congrFun (h p hp) i) j

theorem degree_le_cast {p : ℝ[X]} (hp : p.degree < n) (hnm : n ≤ m) : p.degree < m :=
  hp.trans_le (by exact_mod_cast hnm)

/-- C115: interpolation through a set of at least as many points in between does not change anything. -/
theorem C115_interpolation (h : Built x L) (h' : Built x' L') (hnm : n ≤ m) (times : Fin r → ℝ) :
    L'.getInterpolationMatrix times * L.getInterpolationMatrix x' = L.getInterpolationMatrix times :=
  matrix_ext h.1 fun p hp => by
    rw [← mulVec_mulVec, h.interpolates _ p hp, h'.interpolates _ p (degree_le_cast hp hnm), h.interpolates _ p hp]

/-- C115: interpolation at its own points is the identity. -/
theorem interpolation_self (h : Built x L) : L.getInterpolationMatrix x = 1 :=
  matrix_ext h.1 fun p hp => by rw [h.interpolates _ p hp, one_mulVec]

/-- C115: to a finer set of points and back is the identity. -/
theorem C115_round_trip (h : Built x L) (h' : Built x' L') (hnm : n ≤ m) :
    L'.getInterpolationMatrix x * L.getInterpolationMatrix x' = 1 := by
  rw [C115_interpolation h h' hnm, interpolation_self h]

/-- C115: to a coarser set of points and back is the identity on polynomials of the degree of the coarse set, and a projection. -/
theorem C115_projection (h : Built x L) (h' : Built x' L') (hnm : n ≤ m) :
    (∀ p : ℝ[X], p.degree < n → (L.getInterpolationMatrix x' * L'.getInterpolationMatrix x) *ᵥ vals p x' = vals p x') ∧
    IsIdempotentElem (L.getInterpolationMatrix x' * L'.getInterpolationMatrix x) := by
  constructor
  · intro p hp
    rw [← mulVec_mulVec, h'.interpolates _ p (degree_le_cast hp hnm), h.interpolates _ p hp]
  · rw [IsIdempotentElem, Matrix.mul_assoc, ← Matrix.mul_assoc (L'.getInterpolationMatrix x), C115_round_trip h h' hnm,
      Matrix.one_mul]

/-- C115: interpolation to a finer set of points does not change integrals. -/
theorem C115_integration (h : Built x L) (h' : Built x' L') (hn : 0 < n) (hnm : n ≤ m) (ext : ExternalQuad)
    (numQuad numQuad' : String) (hq : numQuad ∈ ["LEGENDRE_NUMPY", "LEGENDRE_SCIPY", "FEJER"])
    (hq' : numQuad' ∈ ["LEGENDRE_NUMPY", "LEGENDRE_SCIPY", "FEJER"]) (hext : numQuad ≠ "FEJER" ∨ numQuad' ≠ "FEJER" → ext.Exact)
    (intervals : Fin r → ℝ × ℝ) :
    ∃ Q Q', L.getIntegrationMatrix ext intervals numQuad = .ok Q ∧ L'.getIntegrationMatrix ext intervals numQuad' = .ok Q' ∧
      Q' * L.getInterpolationMatrix x' = Q := by
  have hi := h.interpolates x'
  obtain ⟨hx, wc, sw, sr, dupl, fv, hc, hL⟩ := h
  obtain ⟨hx', wc', sw', sr', dupl', fv', hc', hL'⟩ := h'
  obtain ⟨Q, hQ, e⟩ := C04_integration_exact x hx hn wc sw sr dupl fv hc L hL ext numQuad hq (fun h => hext (Or.inl h)) intervals
  obtain ⟨Q', hQ', e'⟩ := C04_integration_exact x' hx' (hn.trans_le hnm) wc' sw' sr' dupl' fv' hc' L' hL' ext numQuad' hq'
    (fun h => hext (Or.inr h)) intervals
  refine ⟨Q, Q', hQ, hQ', matrix_ext hx fun p hp => ?_⟩
  rw [← mulVec_mulVec, hi p hp]
  funext i
  rw [e p hp, e' p (degree_le_cast hp hnm)]

/-- C115: derivation and interpolation commute, for the first and the second derivative. -/
theorem C115_derivative (h : Built x L) (h' : Built x' L') (hnm : n ≤ m) :
    ∃ (e : L.nUniquePoints = n) (e' : L'.nUniquePoints = m) (D1 D2 : Matrix (Fin L.nUniquePoints) (Fin n) ℝ)
      (D1' D2' : Matrix (Fin L'.nUniquePoints) (Fin m) ℝ),
      L.getDerivativeMatrix (.str "ALL") = .ok (.pair D1 D2) ∧ L'.getDerivativeMatrix (.str "ALL") = .ok (.pair D1' D2') ∧
      (D1' * L.getInterpolationMatrix x').submatrix (Fin.cast e'.symm) id =
        L.getInterpolationMatrix x' * D1.submatrix (Fin.cast e.symm) id ∧
      (D2' * L.getInterpolationMatrix x').submatrix (Fin.cast e'.symm) id =
        L.getInterpolationMatrix x' * D2.submatrix (Fin.cast e.symm) id := by
  have hi := h.interpolates x'
  obtain ⟨hx, wc, sw, sr, dupl, fv, hc, hL⟩ := h
  obtain ⟨hx', wc', sw', sr', dupl', fv', hc', hL'⟩ := h'
  obtain ⟨e, D1, D2, -, -, hD, hex, -⟩ := C07_derivative_exact x hx wc sw sr dupl fv hc L hL
  obtain ⟨e', D1', D2', -, -, hD', hex', -⟩ := C07_derivative_exact x' hx' wc' sw' sr' dupl' fv' hc' L' hL'
  have dlt : ∀ p : ℝ[X], p.degree < n → (derivative p).degree < n := fun p hp => lt_of_le_of_lt (degree_derivative_le) hp
  refine ⟨e, e', D1, D2, D1', D2', hD, hD', matrix_ext hx fun p hp => ?_, matrix_ext hx fun p hp => ?_⟩
  · have h1 : D1.submatrix (Fin.cast e.symm) id *ᵥ vals p x = vals (derivative p) x := by
      funext i
      have := (hex p hp (Fin.cast e.symm i)).1
      change (D1 *ᵥ vals p x) (Fin.cast e.symm i) = _
      simpa [vals] using this
    rw [← mulVec_mulVec, h1, hi _ (dlt p hp)]
    funext i
    have h2 := (hex' p (degree_le_cast hp hnm) (Fin.cast e'.symm i)).1
    rw [← hi p hp, mulVec_mulVec] at h2
    change ((D1' * L.getInterpolationMatrix x') *ᵥ vals p x) (Fin.cast e'.symm i) = _
    simpa [vals] using h2
  · have h1 : D2.submatrix (Fin.cast e.symm) id *ᵥ vals p x = vals (derivative (derivative p)) x := by
      funext i
      have := (hex p hp (Fin.cast e.symm i)).2
      change (D2 *ᵥ vals p x) (Fin.cast e.symm i) = _
      simpa [vals] using this
    rw [← mulVec_mulVec, h1, hi _ (dlt _ (dlt p hp))]
    funext i
    have h2 := (hex' p (degree_le_cast hp hnm) (Fin.cast e'.symm i)).2
    rw [← hi p hp, mulVec_mulVec] at h2
    change ((D2' * L.getInterpolationMatrix x') *ᵥ vals p x) (Fin.cast e'.symm i) = _
    simpa [vals] using h2

theorem integral_derivative_poly (p : ℝ[X]) (a b : ℝ) : ∫ t in a..b, (derivative p).eval t = p.eval b - p.eval a :=
  intervalIntegral.integral_eq_sub_of_hasDerivAt (fun t _ => p.hasDerivAt t) ((derivative p).continuous.intervalIntegrable _ _)

/-- C115: integrals of the derivative are differences of the values: the integration matrix from one time to the others, times the
derivation matrix, is the interpolation at these times minus the one at the first. -/
theorem C115_integral_of_derivative (h : Built x L) (hn : 0 < n) (ext : ExternalQuad)
    (numQuad : String) (hq : numQuad ∈ ["LEGENDRE_NUMPY", "LEGENDRE_SCIPY", "FEJER"]) (hext : numQuad ≠ "FEJER" → ext.Exact)
    (s t : Fin r → ℝ) :
    ∃ (e : L.nUniquePoints = n) (D : Matrix (Fin L.nUniquePoints) (Fin n) ℝ) (Q : Matrix (Fin r) (Fin n) ℝ),
      L.getDerivativeMatrix (.int 1) = .ok (.single D) ∧
      L.getIntegrationMatrix ext (fun i => (s i, t i)) numQuad = .ok Q ∧
      Q * D.submatrix (Fin.cast e.symm) id = L.getInterpolationMatrix t - L.getInterpolationMatrix s := by
  have hi := h.interpolates (r := r)
  obtain ⟨hx, wc, sw, sr, dupl, fv, hc, hL⟩ := h
  obtain ⟨e, D, D2, hD, -, -, hex, -⟩ := C07_derivative_exact x hx wc sw sr dupl fv hc L hL
  obtain ⟨Q, hQ, eQ⟩ := C04_integration_exact x hx hn wc sw sr dupl fv hc L hL ext numQuad hq hext fun i => (s i, t i)
  refine ⟨e, D, Q, hD, hQ, matrix_ext hx fun p hp => ?_⟩
  have h1 : D.submatrix (Fin.cast e.symm) id *ᵥ vals p x = vals (derivative p) x := by
    funext i
    have := (hex p hp (Fin.cast e.symm i)).1
    change (D *ᵥ vals p x) (Fin.cast e.symm i) = _
    simpa [vals] using this
  rw [← mulVec_mulVec, h1, sub_mulVec, hi t p hp, hi s p hp]
  funext i
  rw [eQ _ (lt_of_le_of_lt degree_derivative_le hp) i]
  exact integral_derivative_poly p _ _

/-- C115: integrals over adjacent intervals add up, and change their sign with the direction. -/
theorem C115_intervals (h : Built x L) (hn : 0 < n) (ext : ExternalQuad)
    (numQuad : String) (hq : numQuad ∈ ["LEGENDRE_NUMPY", "LEGENDRE_SCIPY", "FEJER"]) (hext : numQuad ≠ "FEJER" → ext.Exact)
    (s t u : Fin r → ℝ) :
    ∃ Q1 Q2 Q3 Q4, L.getIntegrationMatrix ext (fun i => (s i, t i)) numQuad = .ok Q1 ∧
      L.getIntegrationMatrix ext (fun i => (t i, u i)) numQuad = .ok Q2 ∧
      L.getIntegrationMatrix ext (fun i => (s i, u i)) numQuad = .ok Q3 ∧
      L.getIntegrationMatrix ext (fun i => (t i, s i)) numQuad = .ok Q4 ∧ Q1 + Q2 = Q3 ∧ Q4 = -Q1 := by
  obtain ⟨hx, wc, sw, sr, dupl, fv, hc, hL⟩ := h
  obtain ⟨Q1, h1, e1⟩ := C04_integration_exact x hx hn wc sw sr dupl fv hc L hL ext numQuad hq hext fun i => (s i, t i)
  obtain ⟨Q2, h2, e2⟩ := C04_integration_exact x hx hn wc sw sr dupl fv hc L hL ext numQuad hq hext fun i => (t i, u i)
  obtain ⟨Q3, h3, e3⟩ := C04_integration_exact x hx hn wc sw sr dupl fv hc L hL ext numQuad hq hext fun i => (s i, u i)
  obtain ⟨Q4, h4, e4⟩ := C04_integration_exact x hx hn wc sw sr dupl fv hc L hL ext numQuad hq hext fun i => (t i, s i)
  have hint : ∀ (p : ℝ[X]) a b, IntervalIntegrable (fun t => p.eval t) MeasureTheory.volume a b := fun p a b =>
    p.continuous.intervalIntegrable _ _
  refine ⟨Q1, Q2, Q3, Q4, h1, h2, h3, h4, matrix_ext hx fun p hp => ?_, matrix_ext hx fun p hp => ?_⟩
  · funext i
    rw [add_mulVec, Pi.add_apply, e1 p hp, e2 p hp, e3 p hp]
    exact intervalIntegral.integral_add_adjacent_intervals (hint p _ _) (hint p _ _)
  · funext i
    rw [neg_mulVec, Pi.neg_apply, e4 p hp, e1 p hp]
    exact intervalIntegral.integral_symm _ _

end

/-! ## Collocation on two levels -/

section

variable {M M' : ℕ} {nt qt nt' qt' : String} {a b : ℝ} {c : Collocation M} {c' : Collocation M'}
  {L : LagrangeApproximation M} {L' : LagrangeApproximation M'}

/-- C115: the `Q` matrix of a collocation method is the one of any method with more nodes, between interpolation to the finer nodes and
back: `R Q' P = Q`; and the weights are the finer weights after interpolation. -/
theorem C115_two_levels (hab : a < b) (hc : Collocation.new M nt qt a b = .ok c) (hc' : Collocation.new M' nt' qt' a b = .ok c')
    (h : Built c.nodes L) (h' : Built c'.nodes L') (hM : M < M') :
    L'.getInterpolationMatrix c.nodes * c'.Q * L.getInterpolationMatrix c'.nodes = c.Q ∧
      c'.weights ᵥ* L.getInterpolationMatrix c'.nodes = c.weights := by
  obtain ⟨x, hM0, hs⟩ := collocation_spec hc
  obtain ⟨x', hM0', hs'⟩ := collocation_spec hc'
  have hp' : ∀ p : ℝ[X], p.degree < M → p.degree < M' := fun p hp => degree_le_cast hp hM.le
  constructor
  · refine matrix_ext h.1 fun p hp => ?_
    obtain ⟨P, -, hPd, hPe⟩ := exists_antideriv p hp a
    have h1 : c'.Q *ᵥ vals p c'.nodes = vals P c'.nodes := by
      funext i
      exact (hs'.Q_exact hab p (hp' p hp) i).trans (hPe _)
    have h2 : c.Q *ᵥ vals p c.nodes = vals P c.nodes := by
      funext i
      exact (hs.Q_exact hab p hp i).trans (hPe _)
    rw [← mulVec_mulVec, h.interpolates _ p hp, ← mulVec_mulVec, h1, h2]
    exact h'.interpolates _ P (hPd.trans_le (by exact_mod_cast hM))
  · refine weights_ext h.1.injective fun p hp => ?_
    have h1 : (c'.weights ᵥ* L.getInterpolationMatrix c'.nodes) ⬝ᵥ vals p c.nodes = c'.weights ⬝ᵥ vals p c'.nodes := by
      rw [← dotProduct_mulVec, h.interpolates _ p hp]
    exact h1.trans ((hs'.weights_exact hab p (hp' p hp)).trans (hs.weights_exact hab p hp).symm)

/-- C115: with the same number of nodes this holds for the weights only. -/
theorem C115_two_levels_fails : ∃ (c c' : Collocation 1) (L L' : LagrangeApproximation 1),
    Collocation.new 1 "LEGENDRE" "GAUSS" 0 1 = .ok c ∧ Collocation.new 1 "LEGENDRE" "RADAU-RIGHT" 0 1 = .ok c' ∧
    Built c.nodes L ∧ Built c'.nodes L' ∧ L'.getInterpolationMatrix c.nodes * c'.Q * L.getInterpolationMatrix c'.nodes ≠ c.Q := by
  obtain ⟨c, hc⟩ := collocation_new_ok (M := 1) (nt := "LEGENDRE") (qt := "GAUSS") (by decide)
    (by decide) ⟨by norm_num, fun h => by simp at h⟩ 0 1
  obtain ⟨c', hc'⟩ := collocation_new_ok (M := 1) (nt := "LEGENDRE") (qt := "RADAU-RIGHT") (by decide)
    (by decide) ⟨by norm_num, fun h => by simp at h⟩ 0 1
  obtain ⟨x, hM, hs⟩ := collocation_spec hc
  obtain ⟨x', hM', hs'⟩ := collocation_spec hc'
  have hB : Built c.nodes c.approx := ⟨hs.strictMono (by norm_num), _, _, _, _, _, by simp, hs.approx⟩
  have hB' : Built c'.nodes c'.approx := ⟨hs'.strictMono (by norm_num), _, _, _, _, _, by simp, hs'.approx⟩
  refine ⟨c, c', c.approx, c'.approx, hc, hc', hB, hB', fun he => ?_⟩
  have hd : (1 : ℝ[X]).degree < (1 : ℕ) := by simp
  have h1 : ∀ {k : ℕ} (y : Fin k → ℝ), vals 1 y = fun _ => 1 := fun y => by funext i; simp [vals]
  have hQ : c.Q *ᵥ vals 1 c.nodes = c.nodes := by
    funext i
    refine (hs.Q_exact (by norm_num) 1 hd i).trans ?_
    simp [polyInt]
  have hQ' : c'.Q *ᵥ vals 1 c'.nodes = fun _ => c'.nodes 0 := by
    funext i
    refine (hs'.Q_exact (by norm_num) 1 hd i).trans ?_
    simp [polyInt, Subsingleton.elim i 0]
  have h2 := congrArg (· *ᵥ vals 1 c.nodes) he
  simp only [← mulVec_mulVec] at h2
  rw [hB.interpolates _ 1 hd, hQ', hQ] at h2
  have h3 : (fun _ : Fin 1 => c'.nodes 0) = c'.nodes 0 • vals 1 c'.nodes := by
    rw [h1]
    funext i
    simp
  rw [h3, mulVec_smul, hB'.interpolates _ 1 hd, h1] at h2
  have h4 := congrFun h2 0
  simp only [Pi.smul_apply, smul_eq_mul, mul_one] at h4
  obtain ⟨i, hi⟩ := ((C24_boundary_nodes_wide (by norm_num [Wide]) (by simp [BonusType]) c' hc').2).2 (Or.inl rfl)
  have h5 := ((C24_boundary_nodes_wide (by norm_num [Wide]) (by simp [BonusType]) c hc).2).1 ⟨0, by
    rw [← h4, ← Subsingleton.elim i 0, hi]⟩
  simp at h5

/-- C115: the differential form of a collocation method without a node at `tLeft` (points in `Built` increase strictly): with the derivation matrix `D` on `tLeft` and the nodes,
`u = Q f` if and only if the polynomial through 0 at `tLeft` and `u` has the derivatives `f` at the nodes. -/
theorem C115_differential (hab : a < b) (hc : Collocation.new M nt qt a b = .ok c)
    {L : LagrangeApproximation (M + 1)} (h : Built (Fin.cons a c.nodes : Fin (M + 1) → ℝ) L) :
    ∃ (e : L.nUniquePoints = M + 1) (D : Matrix (Fin L.nUniquePoints) (Fin (M + 1)) ℝ),
      L.getDerivativeMatrix (.int 1) = .ok (.single D) ∧
      ∀ u f : Fin M → ℝ, u = c.Q *ᵥ f ↔
        ∀ i : Fin M, (D *ᵥ (Fin.cons 0 u : Fin (M + 1) → ℝ)) (Fin.cast e.symm i.succ) = f i := by
  obtain ⟨x, hM, hs⟩ := collocation_spec hc
  obtain ⟨hx, wc, sw, sr, dupl, fv, hch, hL⟩ := h
  obtain ⟨e, D, D2, hD, -, -, hex, -⟩ := C07_derivative_exact _ hx wc sw sr dupl fv hch L hL
  have hinj := (hs.strictMono hab).injective
  have hcons : ∀ P : ℝ[X], vals P (Fin.cons a c.nodes : Fin (M + 1) → ℝ) = Fin.cons (P.eval a) (vals P c.nodes) := by
    intro P
    funext i
    refine Fin.cases ?_ (fun i => ?_) i <;> simp [vals]
  have hder : ∀ P : ℝ[X], P.degree < (M + 1 : ℕ) → ∀ i : Fin M,
      (D *ᵥ (Fin.cons (P.eval a) (vals P c.nodes) : Fin (M + 1) → ℝ)) (Fin.cast e.symm i.succ) = (derivative P).eval (c.nodes i) := by
    intro P hP i
    have := (hex P hP (Fin.cast e.symm i.succ)).1
    rw [hcons] at this
    simpa using this
  refine ⟨e, D, hD, fun u f => ⟨?_, fun hf => ?_⟩⟩
  · rintro rfl i
    set F := Lagrange.interpolate Finset.univ c.nodes f with hF
    have hFd : F.degree < M := by
      have := Lagrange.degree_interpolate_lt f (hinj.injOn (s := (Finset.univ : Finset (Fin M))))
      rwa [Finset.card_univ, Fintype.card_fin] at this
    have hFv : vals F c.nodes = f := by
      funext j
      exact Lagrange.eval_interpolate_at_node f hinj.injOn (Finset.mem_univ j)
    obtain ⟨G, hG, hGd, hGe⟩ := exists_antideriv F hFd a
    have hGa : G.eval a = 0 := by rw [← hGe]; simp [polyInt]
    have hGv : vals G c.nodes = c.Q *ᵥ f := by
      funext j
      rw [← hFv]
      exact ((hs.Q_exact hab F hFd j).trans (hGe _)).symm
    have := hder G hGd i
    rw [hGa, hGv, hG] at this
    rw [this]
    exact congrFun hFv i
  · set P := Lagrange.interpolate Finset.univ (Fin.cons a c.nodes : Fin (M + 1) → ℝ) (Fin.cons 0 u : Fin (M + 1) → ℝ) with hP
    have hPd : P.degree < (M + 1 : ℕ) := by
      have := Lagrange.degree_interpolate_lt (Fin.cons 0 u : Fin (M + 1) → ℝ)
        (hx.injective.injOn (s := ((Finset.univ : Finset (Fin (M + 1))) : Set (Fin (M + 1)))))
      rwa [Finset.card_univ, Fintype.card_fin] at this
    have hPv : vals P (Fin.cons a c.nodes : Fin (M + 1) → ℝ) = Fin.cons 0 u := by
      funext j
      exact Lagrange.eval_interpolate_at_node _ hx.injective.injOn (Finset.mem_univ j)
    rw [hcons] at hPv
    have hPa : P.eval a = 0 := by simpa using congrFun hPv 0
    have hPu : ∀ j, P.eval (c.nodes j) = u j := fun j => by simpa [vals] using congrFun hPv j.succ
    have hP'd : (derivative P).degree < M := by
      by_cases h0 : P = 0
      · rw [h0]
        simp
      · have h1 := (natDegree_lt_iff_degree_lt h0).2 hPd
        refine (degree_derivative_lt h0).trans_le ?_
        rw [degree_eq_natDegree h0]
        exact_mod_cast Nat.lt_succ_iff.1 h1
    have hfv : vals (derivative P) c.nodes = f := by
      funext j
      have := hder P hPd j
      rw [hPv, hf] at this
      exact this.symm
    funext j
    rw [← hfv]
    refine Eq.symm ((hs.Q_exact hab _ hP'd j).trans ?_)
    rw [polyInt, integral_derivative_poly, hPa, hPu, sub_zero]

/-! ## Instances -/

/-- Two levels with three and five nodes. -/
example : ∃ (c : Collocation 3) (c' : Collocation 5), Collocation.new 3 "LEGENDRE" "RADAU-RIGHT" 0 1 = .ok c ∧
    Collocation.new 5 "EQUID" "LOBATTO" 0 1 = .ok c' ∧ Built c.nodes c.approx ∧ Built c'.nodes c'.approx ∧
    c'.approx.getInterpolationMatrix c.nodes * c'.Q * c.approx.getInterpolationMatrix c'.nodes = c.Q ∧
    c'.approx.getInterpolationMatrix c.nodes * c.approx.getInterpolationMatrix c'.nodes = 1 := by
  obtain ⟨c, hc⟩ := collocation_new_ok (M := 3) (nt := "LEGENDRE") (qt := "RADAU-RIGHT") (by decide)
    (by decide) ⟨by norm_num, fun _ => by norm_num⟩ 0 1
  obtain ⟨c', hc'⟩ := collocation_new_ok (M := 5) (nt := "EQUID") (qt := "LOBATTO") (by decide)
    (by decide) ⟨by norm_num, fun _ => by norm_num⟩ 0 1
  obtain ⟨x, hM, hs⟩ := collocation_spec hc
  obtain ⟨x', hM', hs'⟩ := collocation_spec hc'
  have hB : Built c.nodes c.approx := ⟨hs.strictMono (by norm_num), _, _, _, _, _, by simp, hs.approx⟩
  have hB' : Built c'.nodes c'.approx := ⟨hs'.strictMono (by norm_num), _, _, _, _, _, by simp, hs'.approx⟩
  exact ⟨c, c', hc, hc', hB, hB', (C115_two_levels (by norm_num) hc hc' hB hB' (by norm_num)).1,
    C115_round_trip hB hB' (by norm_num)⟩

/-- The differential form with four Gauss nodes, also for integrals of derivatives and adjacent intervals. -/
example : ∃ (c : Collocation 4) (L : LagrangeApproximation 5), Collocation.new 4 "LEGENDRE" "GAUSS" 0 1 = .ok c ∧
    Built (Fin.cons 0 c.nodes : Fin 5 → ℝ) L ∧ (∀ i, 0 < c.nodes i) ∧
    (∃ D, L.getDerivativeMatrix (.int 1) = .ok (.single D)) ∧
    ∃ Q1 Q2 Q3 : Matrix (Fin 1) (Fin 5) ℝ, L.getIntegrationMatrix noExternalQuad ![(0, 1)] "FEJER" = .ok Q1 ∧
      L.getIntegrationMatrix noExternalQuad ![(1, 3)] "FEJER" = .ok Q2 ∧
      L.getIntegrationMatrix noExternalQuad ![(0, 3)] "FEJER" = .ok Q3 ∧ Q1 + Q2 = Q3 := by
  obtain ⟨c, hc⟩ := collocation_new_ok (M := 4) (nt := "LEGENDRE") (qt := "GAUSS") (by decide)
    (by decide) ⟨by norm_num, fun h => by simp at h⟩ 0 1
  obtain ⟨x, hM, hs⟩ := collocation_spec hc
  have hpos : ∀ i, 0 < c.nodes i := by
    intro i
    refine lt_of_le_of_ne ((C24_collocation_nodes (by norm_num) c hc).2.1 i).1 fun h0 => ?_
    have := ((C24_boundary_nodes_wide (by norm_num [Wide]) (by simp [BonusType]) c hc).1).1 ⟨i, h0.symm⟩
    simp at this
  have hinc : StrictMono (Fin.cons 0 c.nodes : Fin 5 → ℝ) := by
    rw [Fin.strictMono_iff_lt_succ]
    intro i
    refine Fin.cases ?_ (fun i => ?_) i
    · simpa using hpos 0
    · rw [Fin.cons_succ, ← Fin.succ_castSucc, Fin.cons_succ]
      exact hs.strictMono (by norm_num) (Fin.castSucc_lt_succ)
  obtain ⟨L, hL⟩ := C01_constructor_total (by norm_num) (Fin.cons 0 c.nodes : Fin 5 → ℝ) "AUTO" false "MAX" "USE_LEFT"
    ⟨by simp, by simp, by simp, by simp⟩
  have hB : Built (Fin.cons 0 c.nodes : Fin 5 → ℝ) L := ⟨hinc, _, _, _, _, _, by simp, hL⟩
  obtain ⟨e, D, hD, -⟩ := C115_differential (by norm_num) hc hB
  obtain ⟨Q1, Q2, Q3, Q4, h1, h2, h3, -, h5, -⟩ := C115_intervals hB (by norm_num) noExternalQuad "FEJER" (by simp) (by simp)
    ![0] ![1] ![3]
  refine ⟨c, L, hc, hB, hpos, ⟨D, hD⟩, Q1, Q2, Q3, ?_, ?_, ?_, h5⟩
  · convert h1 using 3
    rename_i k
    fin_cases k
    rfl
  · convert h2 using 3
    rename_i k
    fin_cases k
    rfl
  · convert h3 using 3
    rename_i k
    fin_cases k
    rfl

end

end QMat
