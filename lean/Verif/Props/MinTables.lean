import Verif.Lemmas.MinCertTable
import Verif.Props.QDelta
import Verif.Props.SDCSweeps

/-!
# C88: the tabulated diagonal coefficients in the stiff limit
-/

namespace QMat

open Spec Matrix NodesGenerator

variable {M : ℕ}

/-- For stiff problems all eigenvalues of a sweep come below every number larger than `ρ`: with `z = λ Δt`, the sweeps
are defined and their eigenvalues have modulus less than `r` as soon as `|z|` is large enough. -/
def StiffRadiusAtMost (Q A : Matrix (Fin M) (Fin M) ℝ) (ρ : ℝ) : Prop :=
  ∀ r, ρ < r → ∃ R, ∀ z : ℂ, R < ‖z‖ → (1 - z • cmat A).det ≠ 0 ∧
    ∀ μ ∈ spectrum ℂ (sweepMatrix z Q A), ‖μ‖ < r

theorem StiffRadiusAtMost.mono {Q A : Matrix (Fin M) (Fin M) ℝ} {ρ ρ' : ℝ} (h : StiffRadiusAtMost Q A ρ)
    (hρ : ρ ≤ ρ') : StiffRadiusAtMost Q A ρ' := fun r hr => h r (hρ.trans_lt hr)

/-- A row of the integration matrix belonging to a node at zero vanishes. -/
theorem row_zero {x : Fin M → ℝ} {Q : Matrix (Fin M) (Fin M) ℝ} (hx : Function.Injective x)
    (hQ : IntegratesMonomials x Q) {i : Fin M} (hi : x i = 0) (j : Fin M) : Q i j = 0 := by
  have hdet : IsUnit (vandermonde x).det := isUnit_iff_ne_zero.mpr (det_vandermonde_ne_zero_iff.mpr hx)
  have h1 : Q i ᵥ* vandermonde x = 0 := by
    funext k
    have := hQ k k.2 i
    rw [hi, zero_pow (Nat.succ_ne_zero _), zero_div] at this
    simpa [vecMul, dotProduct, mulVec, vandermonde_apply] using this
  have h2 : Q i = 0 := by
    have := congrArg (fun v => v ᵥ* (vandermonde x)⁻¹) h1
    simpa [vecMul_vecMul, mul_nonsing_inv _ hdet] using this
  exact congrFun h2 j

/-- Zero coefficients occur at the first of Lobatto nodes only. -/
def zerosOk (t : MinCoeffs.Table) : Bool :=
  t.all fun p => p.2.all fun q => q.2.all fun r => (List.range r.2.length).all fun i =>
    decide (r.2.getD i 0 = 0 → q.1 = "LOBATTO" ∧ i = 0)

theorem zero_coefficient {t : MinCoeffs.Table} (ht : zerosOk t = true) {nt qt : String} {n : ℕ} {cs : List ℚ}
    (he : TableEntry t nt qt n cs) (hl : cs.length = n) {i : ℕ} (hi : i < n) (h0 : cs.getD i 0 = 0) :
    qt = "LOBATTO" ∧ i = 0 := by
  obtain ⟨t1, t2, m1, m2, m3⟩ := he
  have := List.all_eq_true.mp ht _ m1
  have := List.all_eq_true.mp this _ m2
  have := List.all_eq_true.mp this _ m3
  have := List.all_eq_true.mp this i (List.mem_range.mpr (by simpa [hl] using hi))
  exact (decide_eq_true_eq.mp this) h0

attribute [local instance] Matrix.linftyOpNormedAddCommGroup Matrix.linftyOpNormedRing Matrix.linftyOpNormedSpace
  Matrix.linftyOpNormedAlgebra

theorem table_matrix {t : MinCoeffs.Table} (ht : t = MinCoeffs.MIN3 ∨ t = MinCoeffs.MIN_VDHS) {nt qt : String} {n : ℕ}
    {cs : List ℚ} (he : TableEntry t nt qt n cs) :
    cs.length = n ∧ computeFromTable t n nt qt = .ok (diagonal fun i : Fin n => ((cs.getD i 0 : ℚ) : ℝ)) := by
  obtain ⟨h, e⟩ := (C49_tables t ht nt qt n).1 cs he
  refine ⟨h, e.trans ?_⟩
  congr 2
  funext i
  have hi : (i:ℕ) < cs.length := by rw [h]; exact i.2
  simp [List.getD_eq_getElem?_getD, List.getElem?_eq_getElem hi]

theorem radius_of_power {t : MinCoeffs.Table} (ht : t = MinCoeffs.MIN3 ∨ t = MinCoeffs.MIN_VDHS) {nt qt : String}
    {n : ℕ} {cs : List ℚ} (he : TableEntry t nt qt n cs) {c : Collocation n}
    (hc : Collocation.new n nt qt 0 1 = .ok c) {ρ : ℝ} (hρ : 0 ≤ ρ) {N : ℕ} (hN : N ≠ 0)
    (h : ‖stiffLimit (fun i => ((cs.getD i 0 : ℚ) : ℝ)) c.Q ^ N‖ ≤ ρ ^ N) :
    StiffRadiusAtMost c.Q (diagonal fun i : Fin n => ((cs.getD i 0 : ℚ) : ℝ)) ρ := by
  intro r hr
  obtain ⟨hinj, hQ⟩ := coll_monomials one_pos hc
  refine stiff_of_power (fun i hi => row_zero hinj hQ ?_) hρ hr hN h
  have hz : zerosOk t = true := by rcases ht with rfl | rfl <;> decide +kernel
  obtain ⟨rfl, h0⟩ := zero_coefficient hz he (table_matrix ht he).1 i.2 (by exact_mod_cast hi)
  obtain ⟨x, hx, hn⟩ := unmoved_lobatto c hc
  obtain ⟨x', hM, hs⟩ := collocation_spec hc
  have hxx : x = x' := by have := hs.getNodes; rw [hx] at this; exact Except.ok.inj this
  have : i = ⟨0, hM⟩ := Fin.ext h0
  rw [hn, this, hxx, hs.first (Or.inr rfl)]
  norm_num

/-- Two Lobatto nodes. -/
theorem lobatto_two {c : Collocation 2} (hc : Collocation.new 2 "LEGENDRE" "LOBATTO" 0 1 = .ok c) :
    stiffLimit (fun i => ((([0, 1 / 2] : List ℚ).getD i 0 : ℚ) : ℝ)) c.Q ^ 2 = 0 := by
  obtain ⟨hinj, hQ⟩ := coll_monomials one_pos hc
  obtain ⟨x, hx, hn⟩ := unmoved_lobatto c hc
  obtain ⟨x', hM, hs⟩ := collocation_spec hc
  have hxx : x = x' := by have := hs.getNodes; rw [hx] at this; exact Except.ok.inj this
  subst hxx
  have h0 : c.nodes 0 = 0 := by
    have : x 0 = -1 := hs.first (Or.inr rfl)
    rw [hn, this]; norm_num
  have h1 : c.nodes 1 = 1 := by
    have : x 1 = 1 := hs.last (Or.inr rfl)
    rw [hn, this]; norm_num
  have q := hQ 1 (by norm_num) 1
  simp only [mulVec, dotProduct, Fin.sum_univ_two, h0, h1, pow_one] at q
  norm_num at q
  ext i j
  rw [pow_two, mul_apply, Fin.sum_univ_two]
  fin_cases i <;> fin_cases j <;> simp [stiffLimit, diagonal_apply, q]

theorem min3_lookup {t : MinCoeffs.Table} (ht : t = MinCoeffs.MIN3 ∨ t = MinCoeffs.MIN_VDHS) {nt qt : String} {n : ℕ}
    {cs : List ℚ} (h : tableLookup t nt qt n = .ok cs) : TableEntry t nt qt n cs := by
  by_contra hno
  have key := (C49_tables t ht nt qt n)
  by_cases hex : ∃ cs', TableEntry t nt qt n cs'
  · obtain ⟨cs', h'⟩ := hex
    have hwf : tableWF t = true := by rcases ht with rfl | rfl <;> decide +kernel
    simp only [tableWF, Bool.and_eq_true, decide_eq_true_eq, List.all_eq_true, beq_iff_eq] at hwf
    obtain ⟨h1, h2⟩ := hwf
    have h'' := h'
    obtain ⟨t1, t2, m1, m2, m3⟩ := h''
    obtain ⟨h3, h4⟩ := h2 _ m1
    obtain ⟨h5, -⟩ := h4 _ m2
    rw [tableLookup, (lookup_eq_some_iff h1).mpr m1] at h
    simp only [(lookup_eq_some_iff h3).mpr m2, (lookup_eq_some_iff h5).mpr m3] at h
    cases h
    exact hno h'
  · have := key.2 hex
    rw [computeFromTable, h] at this
    simp only at this
    split_ifs at this
    exact absurd (Except.error.inj this) (by decide)

/-- The bound of an entry whose data were checked. -/
theorem entry_radius {t : MinCoeffs.Table} (ht : t = MinCoeffs.MIN3 ∨ t = MinCoeffs.MIN_VDHS) {e : MinCert.Entry}
    (hok : MinCert.entryOk t e = true) {c : Collocation e.size}
    (hc : Collocation.new e.size e.nodeType e.quadType 0 1 = .ok c) :
    ∃ A, computeFromTable t e.size e.nodeType e.quadType = .ok A ∧ StiffRadiusAtMost c.Q A e.bound := by
  have hok' := hok
  simp only [MinCert.entryOk, Bool.and_eq_true, decide_eq_true_eq] at hok'
  obtain ⟨⟨⟨hb, -⟩, -⟩, hl⟩ := hok'
  change (match tableLookup t e.nodeType e.quadType e.size with
    | .error _ => false
    | .ok ds => _) = true at hl
  cases hcs : tableLookup t e.nodeType e.quadType e.size with
  | error _ => rw [hcs] at hl; exact absurd hl (by simp)
  | ok cs =>
    have he := min3_lookup ht hcs
    exact ⟨_, (table_matrix ht he).2, radius_of_power ht he hc (by exact_mod_cast hb.le)
      (pow_ne_zero _ two_ne_zero) (MinCert.entryOk_sound hok hcs c hc).2⟩

/-- Every combination with a documented value is in the table, and every entry of the table has one. -/
theorem C88_complete (nt qt : String) (n : ℕ) :
    (∃ cs, TableEntry MinCoeffs.MIN3 nt qt n cs) ↔ ∃ ρ, (nt, qt, n, ρ) ∈ MinCert.documented := by
  have h1 : ∀ p ∈ MinCoeffs.MIN3, ∀ q ∈ p.2, ∀ r ∈ q.2, ∃ d ∈ MinCert.documented, d.1 = p.1 ∧ d.2.1 = q.1 ∧
      d.2.2.1 = r.1 := by decide +kernel
  have h2 : ∀ d ∈ MinCert.documented, ∃ p ∈ MinCoeffs.MIN3, p.1 = d.1 ∧ ∃ q ∈ p.2, q.1 = d.2.1 ∧ ∃ r ∈ q.2,
      r.1 = d.2.2.1 := by decide +kernel
  constructor
  · rintro ⟨cs, t1, t2, m1, m2, m3⟩
    obtain ⟨⟨a, b, c, d⟩, hd, e1, e2, e3⟩ := h1 _ m1 _ m2 _ m3
    dsimp only at e1 e2 e3
    subst e1 e2 e3
    exact ⟨d, hd⟩
  · rintro ⟨ρ, hd⟩
    obtain ⟨⟨p, t1⟩, m1, e1, ⟨q, t2⟩, m2, e2, ⟨r, cs⟩, m3, e3⟩ := h2 _ hd
    dsimp only at e1 e2 e3
    subst e1 e2 e3
    exact ⟨cs, t1, t2, m1, m2, m3⟩

/-- Instance: six Lobatto nodes are not tabulated, five are. -/
example : (∃ cs, TableEntry MinCoeffs.MIN3 "LEGENDRE" "LOBATTO" 5 cs) ∧
    ¬ ∃ cs, TableEntry MinCoeffs.MIN3 "LEGENDRE" "LOBATTO" 6 cs := by
  rw [C88_complete, C88_complete]
  refine ⟨⟨102708631047 / 2000000000000, by decide +kernel⟩, ?_⟩
  rintro ⟨ρ, h⟩
  have : ∀ d ∈ MinCert.documented, d.2.2.1 ≠ 6 := by decide +kernel
  exact this _ h rfl

/-- C88: for every entry of the table `MIN3`, a sweep with the matrix the generator returns has, in the stiff limit, no
eigenvalue of modulus above the spectral radius documented for the entry. -/
theorem C88_documented (ext : ExternalNum) (k : Option ℤ) {nt qt : String} {n : ℕ} {ρ : ℚ}
    (h : (nt, qt, n, ρ) ∈ MinCert.documented) (c : Collocation n) (hc : Collocation.new n nt qt 0 1 = .ok c) :
    ∃ A : Matrix (Fin n) (Fin n) ℝ, getQD ext "MIN3" (kwColl c) k = .ok ⟨n, A⟩ ∧ StiffRadiusAtMost c.Q A ρ := by
  obtain ⟨hnt, hqt⟩ := coll_types hc
  have key : ∃ A, computeFromTable MinCoeffs.MIN3 n nt qt = .ok A ∧ StiffRadiusAtMost c.Q A ρ := by
    have hall : ∀ d ∈ MinCert.documented, d = ("LEGENDRE", "LOBATTO", 2, 0) ∨ ∃ e ∈ MinCert.min3Entries,
        e.nodeType = d.1 ∧ e.quadType = d.2.1 ∧ e.size = d.2.2.1 ∧ e.bound ≤ d.2.2.2 := by
      decide +kernel
    rcases hall _ h with h' | ⟨e, he, rfl, rfl, rfl, hb⟩
    · cases h'
      have he : TableEntry MinCoeffs.MIN3 "LEGENDRE" "LOBATTO" 2 [0, 1 / 2] :=
        ⟨_, _, List.mem_cons_self, List.mem_cons_self, by decide +kernel⟩
      refine ⟨_, (table_matrix (Or.inl rfl) he).2, radius_of_power (Or.inl rfl) he hc (by simp) two_ne_zero ?_⟩
      rw [lobatto_two hc]
      simp
    · obtain ⟨A, hA, hS⟩ := entry_radius (Or.inl rfl) (MinCert.min3Entries_ok e he) hc
      exact ⟨A, hA, hS.mono (by exact_mod_cast hb)⟩
  obtain ⟨A, hA, hS⟩ := key
  refine ⟨A, ?_, hS⟩
  rw [(C49_generators ext c k).1, hnt, hqt, hA]
  rfl

/-- Instance: five Radau nodes of Legendre type; the documented value is 0.0783352996958. -/
example (ext : ExternalNum) : ∃ (c : Collocation 5) (A : Matrix (Fin 5) (Fin 5) ℝ),
    Collocation.new 5 "LEGENDRE" "RADAU-RIGHT" 0 1 = .ok c ∧
    StiffRadiusAtMost c.Q A (783352996958 / 10000000000000) := by
  obtain ⟨c, hc⟩ := collocation_new_ok (M := 5) (nt := "LEGENDRE") (qt := "RADAU-RIGHT") (by decide)
    (by decide) (by simp [ValidSize]) 0 1
  obtain ⟨A, -, h⟩ := C88_documented ext none (ρ := 391676498479 / 5000000000000) (by decide +kernel) c hc
  exact ⟨c, A, hc, h.mono (by norm_num)⟩

/-- C88: the documented values are upper bounds and not the radii: apart from two Lobatto nodes, every entry has a
smaller bound. -/
theorem C88_documented_radius_fails {nt qt : String} {n : ℕ} {ρ : ℚ} (h : (nt, qt, n, ρ) ∈ MinCert.documented)
    (hρ : ρ ≠ 0) (c : Collocation n) (hc : Collocation.new n nt qt 0 1 = .ok c) (ext : ExternalNum) (k : Option ℤ) :
    ∃ A : Matrix (Fin n) (Fin n) ℝ, getQD ext "MIN3" (kwColl c) k = .ok ⟨n, A⟩ ∧
      ∃ ρ' < ρ, StiffRadiusAtMost c.Q A ρ' := by
  obtain ⟨hnt, hqt⟩ := coll_types hc
  have hall : ∀ d ∈ MinCert.documented, d.2.2.2 ≠ 0 → ∃ e ∈ MinCert.min3Entries,
      e.nodeType = d.1 ∧ e.quadType = d.2.1 ∧ e.size = d.2.2.1 ∧ e.bound < d.2.2.2 := by
    decide +kernel
  obtain ⟨e, he, rfl, rfl, rfl, hb⟩ := hall _ h hρ
  obtain ⟨A, hA, hS⟩ := entry_radius (Or.inl rfl) (MinCert.min3Entries_ok e he) hc
  refine ⟨A, ?_, e.bound, hb, hS⟩
  rw [(C49_generators ext c k).1, hnt, hqt, hA]
  rfl

/-- Instance: seven Lobatto nodes, where 0.055 is enough and 0.0979351256833 is documented. -/
example (ext : ExternalNum) : ∃ (c : Collocation 7) (A : Matrix (Fin 7) (Fin 7) ℝ) (ρ : ℚ),
    Collocation.new 7 "LEGENDRE" "LOBATTO" 0 1 = .ok c ∧ ρ < 979351256833 / 10000000000000 ∧
    StiffRadiusAtMost c.Q A ρ := by
  obtain ⟨c, hc⟩ := collocation_new_ok (M := 7) (nt := "LEGENDRE") (qt := "LOBATTO") (by decide)
    (by decide) (by simp [ValidSize]) 0 1
  obtain ⟨A, -, ρ, hρ, h⟩ := C88_documented_radius_fails (ρ := 979351256833 / 10000000000000) (by decide +kernel)
    (by norm_num) c hc ext none
  exact ⟨c, A, ρ, hc, hρ, h⟩

/-- C88: the same for the table of `VDHS`, which documents no radii: 0.006 for three nodes and 0.03 for four. -/
theorem C88_vdhs (ext : ExternalNum) (k : Option ℤ) :
    (∀ c : Collocation 3, Collocation.new 3 "LEGENDRE" "RADAU-RIGHT" 0 1 = .ok c →
      ∃ A : Matrix (Fin 3) (Fin 3) ℝ, getQD ext "VDHS" (kwColl c) k = .ok ⟨3, A⟩ ∧
        StiffRadiusAtMost c.Q A (6 / 1000)) ∧
    (∀ c : Collocation 4, Collocation.new 4 "LEGENDRE" "RADAU-RIGHT" 0 1 = .ok c →
      ∃ A : Matrix (Fin 4) (Fin 4) ℝ, getQD ext "VDHS" (kwColl c) k = .ok ⟨4, A⟩ ∧
        StiffRadiusAtMost c.Q A (3 / 100)) := by
  constructor
  · intro c hc
    obtain ⟨hnt, hqt⟩ := coll_types hc
    obtain ⟨A, hA, hS⟩ := entry_radius (Or.inr rfl) MinCert.vdhslr3_ok hc
    refine ⟨A, ?_, hS.mono (by norm_num [MinCert.vdhslr3])⟩
    rw [(C49_generators ext c k).2, hnt, hqt]
    exact congrArg (· >>= fun A => Except.ok (⟨3, A⟩ : Sigma fun n => Matrix (Fin n) (Fin n) ℝ)) hA
  · intro c hc
    obtain ⟨hnt, hqt⟩ := coll_types hc
    obtain ⟨A, hA, hS⟩ := entry_radius (Or.inr rfl) MinCert.vdhslr4_ok hc
    refine ⟨A, ?_, hS.mono (by norm_num [MinCert.vdhslr4])⟩
    rw [(C49_generators ext c k).2, hnt, hqt]
    exact congrArg (· >>= fun A => Except.ok (⟨4, A⟩ : Sigma fun n => Matrix (Fin n) (Fin n) ℝ)) hA

/-- Instance: the collocation with three nodes exists. -/
example (ext : ExternalNum) : ∃ (c : Collocation 3) (A : Matrix (Fin 3) (Fin 3) ℝ),
    getQD ext "VDHS" (kwColl c) none = .ok ⟨3, A⟩ ∧ StiffRadiusAtMost c.Q A (6 / 1000) := by
  obtain ⟨c, hc⟩ := collocation_new_ok (M := 3) (nt := "LEGENDRE") (qt := "RADAU-RIGHT") (by decide)
    (by decide) (by simp [ValidSize]) 0 1
  obtain ⟨A, h⟩ := (C88_vdhs ext none).1 c hc
  exact ⟨c, A, h⟩

/-- C88: hence SDC with `MIN3` on stiff problems converges to the collocation solution from every start, with every
factor larger than the documented value. -/
theorem C88_convergence (ext : ExternalNum) (k : Option ℤ) {nt qt : String} {n : ℕ} {ρ : ℚ}
    (h : (nt, qt, n, ρ) ∈ MinCert.documented) (c : Collocation n) (hc : Collocation.new n nt qt 0 1 = .ok c) {r : ℝ}
    (hr : ρ < r) :
    ∃ A : Matrix (Fin n) (Fin n) ℝ, getQD ext "MIN3" (kwColl c) k = .ok ⟨n, A⟩ ∧
      ∃ R, ∀ z : ℂ, R < ‖z‖ → ∀ (u : ℂ) (U : ℕ → Fin n → ℂ), (∀ K, SDCIterates z c.Q (fun _ => A) K u U) →
        ∀ v, IsCollocationSolution z c.Q u v → ∃ C, ∀ K i, ‖U K i - v i‖ ≤ C * r ^ K := by
  obtain ⟨A, hA, hS⟩ := C88_documented ext k h c hc
  obtain ⟨R, hR⟩ := hS r hr
  have hρ : (0:ℝ) ≤ ρ := by
    have : ∀ d ∈ MinCert.documented, 0 ≤ d.2.2.2 := by decide +kernel
    exact_mod_cast this _ h
  exact ⟨A, hA, R, fun z hz u U hU v hv =>
    C81_rate z c.Q A (hR z hz).1 r (hρ.trans_lt hr) (hR z hz).2 u U hU v hv⟩

/-- Instance: two equidistant nodes, where every factor above 0.0214806480623 is reached for stiff problems. -/
example (ext : ExternalNum) : ∃ (c : Collocation 2) (A : Matrix (Fin 2) (Fin 2) ℝ),
    Collocation.new 2 "EQUID" "RADAU-RIGHT" 0 1 = .ok c ∧ ∃ R, ∀ z : ℂ, R < ‖z‖ → ∀ (u : ℂ) (U : ℕ → Fin 2 → ℂ),
      (∀ K, SDCIterates z c.Q (fun _ => A) K u U) → ∀ v, IsCollocationSolution z c.Q u v →
        ∃ C, ∀ K i, ‖U K i - v i‖ ≤ C * (1 / 40) ^ K := by
  obtain ⟨c, hc⟩ := collocation_new_ok (M := 2) (nt := "EQUID") (qt := "RADAU-RIGHT") (by decide)
    (by decide) (by simp [ValidSize]) 0 1
  obtain ⟨A, -, h⟩ := C88_convergence ext none (ρ := 214806480623 / 10000000000000) (r := 1 / 40) (by decide +kernel) c
    hc (by norm_num)
  exact ⟨c, A, hc, h⟩

end QMat
