import Verif.Lemmas.TwoNodes
import Verif.Props.AStable
import Verif.Props.FloatQDelta
import Verif.Props.QBased

/-!
# C107: sweeps on two nodes in the left half-plane
-/

namespace QMat

open Spec Matrix NodesGenerator

/-- The coefficients of a collocation method with two nodes. -/
theorem two_nodes {nt qt : String} (c : Collocation 2) (hc : Collocation.new 2 nt qt 0 1 = .ok c) :
    c.nodes 0 < c.nodes 1 ∧ c.Q 0 0 = c.nodes 0 * (2 * c.nodes 1 - c.nodes 0) / (2 * (c.nodes 1 - c.nodes 0)) ∧
    c.Q 0 1 = -c.nodes 0 ^ 2 / (2 * (c.nodes 1 - c.nodes 0)) ∧ c.Q 1 0 = c.nodes 1 ^ 2 / (2 * (c.nodes 1 - c.nodes 0)) ∧
    c.Q 1 1 = c.nodes 1 * (c.nodes 1 - 2 * c.nodes 0) / (2 * (c.nodes 1 - c.nodes 0)) := by
  obtain ⟨x', _, h⟩ := collocation_spec hc
  obtain ⟨hx, hQ⟩ := coll_monomials one_pos hc
  have hlt : c.nodes 0 < c.nodes 1 := h.strictMono (by norm_num) (by decide : (0 : Fin 2) < 1)
  have hd : c.nodes 1 - c.nodes 0 ≠ 0 := by linarith
  have e0 : ∀ i, c.Q i 0 + c.Q i 1 = c.nodes i := fun i => by
    have := hQ 0 (by norm_num) i
    simpa [mulVec, dotProduct, Fin.sum_univ_two] using this
  have e1 : ∀ i, c.Q i 0 * c.nodes 0 + c.Q i 1 * c.nodes 1 = c.nodes i ^ 2 / 2 := fun i => by
    have := hQ 1 (by norm_num) i
    simp only [mulVec, dotProduct, Fin.sum_univ_two, pow_one] at this
    rw [this]
    norm_num
  refine ⟨hlt, ?_, ?_, ?_, ?_⟩
  · rw [eq_div_iff (by simpa using hd)]; linear_combination 2 * c.nodes 1 * e0 0 - 2 * e1 0
  · rw [eq_div_iff (by simpa using hd)]; linear_combination -2 * c.nodes 0 * e0 0 + 2 * e1 0
  · rw [eq_div_iff (by simpa using hd)]; linear_combination 2 * c.nodes 1 * e0 1 - 2 * e1 1
  · rw [eq_div_iff (by simpa using hd)]; linear_combination -2 * c.nodes 0 * e0 1 + 2 * e1 1

/-- The two `LEGENDRE` nodes in `[0, 1]`: `1/3` and `1`, or `(1 ∓ 1/√3) / 2`. -/
theorem legendre_two {qt : String} (c : Collocation 2) (hc : Collocation.new 2 "LEGENDRE" qt 0 1 = .ok c) :
    (qt = "RADAU-RIGHT" → c.nodes 0 = 1 / 3 ∧ c.nodes 1 = 1) ∧ (qt = "GAUSS" → c.nodes 0 + c.nodes 1 = 1 ∧ c.nodes 0 * c.nodes 1 = 1 / 6) := by
  obtain ⟨x, hx, hun⟩ := unmoved_small (by norm_num) c hc
  obtain ⟨order, ho, -, hex⟩ := C28_quadrature_order_unmoved (by norm_num) c hc x hx (fun i => by rw [hun]; ring)
  obtain ⟨hs, hr, -, hrr⟩ := C24_collocation_nodes (by norm_num) c hc
  have hm : ∀ k : ℕ, k < order → c.weights 0 * c.nodes 0 ^ k + c.weights 1 * c.nodes 1 ^ k = 1 / (k + 1) := fun k hk => by
    have h1 := hex (Polynomial.X ^ k) (by rw [Polynomial.degree_X_pow]; exact_mod_cast hk)
    rw [Fin.sum_univ_two] at h1
    have h2 := polyInt_X_pow k 0 1
    unfold polyInt at h2
    rw [h2] at h1
    simpa using h1
  have hlt : c.nodes 0 < c.nodes 1 := hs (by decide)
  have key : 3 ≤ order → 1 / 3 - (c.nodes 0 + c.nodes 1) / 2 + c.nodes 0 * c.nodes 1 = 0 := fun h3 => by
    have m0 := hm 0 (by omega)
    have m1 := hm 1 (by omega)
    have m2 := hm 2 (by omega)
    norm_num at m0 m1 m2
    linear_combination -m2 + (c.nodes 0 + c.nodes 1) * m1 - c.nodes 0 * c.nodes 1 * m0
  have hord := legendre_order c hc
  rw [ho] at hord
  refine ⟨?_, ?_⟩
  · rintro rfl
    simp at hord
    have hy : c.nodes 1 = 1 := by
      obtain ⟨i, hi⟩ := hrr (by simp) (Or.inl le_rfl)
      refine le_antisymm (hr 1).2 (hi ▸ hs.monotone (by omega))
    have := key (by omega)
    rw [hy] at this ⊢
    exact ⟨by linarith, rfl⟩
  · rintro rfl
    simp at hord
    have h2 := key (by omega)
    have m1 := hm 1 (by omega)
    have m2 := hm 2 (by omega)
    have m3 := hm 3 (by omega)
    norm_num at m1 m2 m3
    have h3 : 1 / 4 - (c.nodes 0 + c.nodes 1) / 3 + c.nodes 0 * c.nodes 1 / 2 = 0 := by
      linear_combination -m3 + (c.nodes 0 + c.nodes 1) * m2 - c.nodes 0 * c.nodes 1 * m1
    exact ⟨by linarith, by linarith⟩

theorem pencil_det (Q A : Matrix (Fin 2) (Fin 2) ℝ) (l ν : ℂ) :
    (l • (1 : Matrix (Fin 2) (Fin 2) ℂ) - (cmat A + ν • cmat (Q - A))).det =
      (l - (A 0 0 + ν * (Q 0 0 - A 0 0))) * (l - (A 1 1 + ν * (Q 1 1 - A 1 1))) -
      (A 0 1 + ν * (Q 0 1 - A 0 1)) * (A 1 0 + ν * (Q 1 0 - A 1 0)) := by
  rw [det_fin_two]
  simp
  ring

/-- The criterion used here. -/
theorem contract_two {Q A : Matrix (Fin 2) (Fin 2) ℝ} {p q α β : ℝ} (hp : 0 ≤ p) (hq : 0 ≤ q) (hα : |α| ≤ p * q) (hβ : β ^ 2 ≤ p ^ 2 + q ^ 2)
    (htr : A 0 0 + A 1 1 = p + q) (hdet : A 0 0 * A 1 1 - A 0 1 * A 1 0 = p * q) (hC : Q 0 0 - A 0 0 + (Q 1 1 - A 1 1) = -β)
    (hmix : A 0 0 * (Q 1 1 - A 1 1) + A 1 1 * (Q 0 0 - A 0 0) - A 0 1 * (Q 1 0 - A 1 0) - A 1 0 * (Q 0 1 - A 0 1) = -α)
    (hz2 : (Q 0 0 - A 0 0) * (Q 1 1 - A 1 1) - (Q 0 1 - A 0 1) * (Q 1 0 - A 1 0) = 0) {z : ℂ} (hz : z.re ≤ 0) : SweepsContract z Q A := by
  refine contract_of_pencil (fun ν hν l hl hl0 => ?_) hz
  have h := ne_of_factor hν (two_factors hp hq hα hβ hl hl0)
  rw [pencil_det]
  convert h using 1
  have c1 : (A 0 0 + A 1 1 : ℂ) = p + q := by exact_mod_cast htr
  have c2 : (A 0 0 * A 1 1 - A 0 1 * A 1 0 : ℂ) = p * q := by exact_mod_cast hdet
  have c3 : (Q 0 0 - A 0 0 + (Q 1 1 - A 1 1) : ℂ) = -β := by exact_mod_cast hC
  have c4 : (A 0 0 * (Q 1 1 - A 1 1) + A 1 1 * (Q 0 0 - A 0 0) - A 0 1 * (Q 1 0 - A 1 0) - A 1 0 * (Q 0 1 - A 0 1) : ℂ) = -α := by
    exact_mod_cast hmix
  have c5 : ((Q 0 0 - A 0 0) * (Q 1 1 - A 1 1) - (Q 0 1 - A 0 1) * (Q 1 0 - A 1 0) : ℂ) = 0 := by exact_mod_cast hz2
  linear_combination -l * c1 + c2 - l * ν * c3 + ν * c4 + ν ^ 2 * c5

/-- Time-stepping matrices for two nodes. -/
theorem two_time (ext : ExternalNum) (x : Fin 2 → ℝ) (k : Option ℤ) :
    (∀ name ∈ ["BE", "IE"], getQD ext name (kwTime x 0) k = .ok ⟨2, !![x 0, 0; x 0, x 1 - x 0]⟩) ∧
    (∀ name ∈ ["TRAP", "CN"], getQD ext name (kwTime x 0) k = .ok ⟨2, !![x 0 / 2, 0; x 1 / 2, (x 1 - x 0) / 2]⟩) ∧
    (∀ name ∈ ["BEPAR", "IEpar"], getQD ext name (kwTime x 0) k = .ok ⟨2, !![x 0, 0; 0, x 1]⟩) ∧
    getQD ext "TRAPAR" (kwTime x 0) k = .ok ⟨2, !![x 0 / 2, 0; 0, x 1 / 2]⟩ := by
  obtain ⟨g, hg⟩ := (C38_constructor x 0).1.mpr (by norm_num)
  obtain ⟨-, hn, ht, hdl⟩ := g.new_ok hg
  have d0 : g.deltas 0 = x 0 := by rw [hdl]; simp
  have d1 : g.deltas 1 = x 1 - x 0 := by rw [hdl]; simp
  have eBE : g.computeBE = !![x 0, 0; x 0, x 1 - x 0] := by
    ext i j
    rw [g.computeBE_apply]
    fin_cases i <;> fin_cases j <;> simp [d0, d1]
  have eT : g.computeTRAP = !![x 0 / 2, 0; x 1 / 2, (x 1 - x 0) / 2] := by
    ext i j
    rw [g.computeTRAP_eq, g.computeBE_apply, g.computeFE_apply]
    fin_cases i <;> fin_cases j <;> simp [d0, d1, atPos]
  have eP : g.computeBEPAR = !![x 0, 0; 0, x 1] := by
    ext i j
    fin_cases i <;> fin_cases j <;> simp [TimeStepping.computeBEPAR, hn, ht]
  have eTP : g.computeTRAPAR = !![x 0 / 2, 0; 0, x 1 / 2] := by
    ext i j
    fin_cases i <;> fin_cases j <;> simp [TimeStepping.computeTRAPAR, hn, ht]
  have fin : ∀ {A B : Matrix (Fin 2) (Fin 2) ℝ}, A = B → (Except.ok (⟨2, A⟩ : Σ n, Matrix (Fin n) (Fin n) ℝ) : PyResult _) = .ok ⟨2, B⟩ :=
    fun h => by rw [h]
  refine ⟨fun name h => ?_, fun name h => ?_, fun name h => ?_, ?_⟩
  · simp only [List.mem_cons, List.not_mem_nil, or_false] at h
    rcases h with rfl | rfl <;> rw [getQD_kwTime ext x 0 k (compute := fun g => .ok g.computeBE) (dTau := fun _ => 0) rfl, hg] <;> exact fin eBE
  · simp only [List.mem_cons, List.not_mem_nil, or_false] at h
    rcases h with rfl | rfl <;> rw [getQD_kwTime ext x 0 k (compute := fun g => .ok g.computeTRAP) (dTau := fun g => g.dTauTRAP) rfl, hg] <;> exact fin eT
  · simp only [List.mem_cons, List.not_mem_nil, or_false] at h
    rcases h with rfl | rfl <;> rw [getQD_kwTime ext x 0 k (compute := fun g => .ok g.computeBEPAR) (dTau := fun _ => 0) rfl, hg] <;> exact fin eP
  · rw [getQD_kwTime ext x 0 k (compute := fun g => .ok g.computeTRAPAR) (dTau := fun g => g.dTauTRAPAR) rfl, hg]; exact fin eTP

variable {nt qt : String}

/-- C107: time-stepping sweeps on two positive nodes of any type contract for every `z = λ Δt` with non-positive real part: `BE` if the first
node is at most three quarters of the second one, `BEPAR` and `TRAPAR` always. -/
theorem C107_time_stepping (ext : ExternalNum) (k : Option ℤ) (c : Collocation 2) (hc : Collocation.new 2 nt qt 0 1 = .ok c) (h0 : 0 < c.nodes 0)
    (name : String) (hname : (name ∈ ["BE", "IE"] ∧ 4 * c.nodes 0 ≤ 3 * c.nodes 1) ∨ name ∈ ["BEPAR", "IEpar", "TRAPAR"]) :
    ∃ A : Matrix (Fin 2) (Fin 2) ℝ, getQD ext name (kwTime c.nodes 0) k = .ok ⟨2, A⟩ ∧ ∀ z : ℂ, z.re ≤ 0 → SweepsContract z c.Q A := by
  obtain ⟨hlt, q00, q01, q10, q11⟩ := two_nodes c hc
  obtain ⟨t1, -, t3, t4⟩ := two_time ext c.nodes k
  generalize c.nodes 0 = x at *
  generalize c.nodes 1 = y at *
  have hd : y - x ≠ 0 := by linarith
  have hd0 : 0 < y - x := by linarith
  have hy : 0 < y := h0.trans hlt
  have hbepar : ∀ z : ℂ, z.re ≤ 0 → SweepsContract z c.Q !![x, 0; 0, y] := fun z hz => by
    refine contract_two (p := x) (q := y) (α := x * y / 2) (β := (x + y) / 2) h0.le hy.le ?_ ?_ (by simp) (by simp) ?_ ?_ ?_ hz
    · rw [abs_of_nonneg (by positivity)]
      nlinarith [mul_pos h0 hy]
    · nlinarith [sq_nonneg (x - y)]
    · simp [q00, q11]; field_simp; ring
    · simp [q00, q11]; field_simp; ring
    · simp [q00, q01, q10, q11]; field_simp; ring
  rcases hname with ⟨hn, h34⟩ | hn
  · refine ⟨_, t1 name hn, fun z hz => contract_two (p := x) (q := y - x) (α := x * (y - 2 * x) / 2) (β := (y - x) / 2) h0.le hd0.le
      ?_ ?_ (by simp) (by simp) ?_ ?_ ?_ hz⟩
    · rw [abs_le]
      constructor <;> nlinarith [mul_pos h0 hd0]
    · nlinarith [sq_nonneg x, sq_nonneg (y - x)]
    · simp [q00, q11]; field_simp; ring
    · simp [q00, q01, q11]; field_simp; ring
    · simp [q00, q01, q10, q11]; field_simp; ring
  · simp only [List.mem_cons, List.not_mem_nil, or_false] at hn
    rcases hn with rfl | rfl | rfl
    · exact ⟨_, t3 _ (by simp), hbepar⟩
    · exact ⟨_, t3 _ (by simp), hbepar⟩
    · refine ⟨_, t4, fun z hz => contract_two (p := x / 2) (q := y / 2) (α := -(x * y / 4)) (β := 0) (by positivity) (by positivity)
        ?_ ?_ (by simp) (by simp) ?_ ?_ ?_ hz⟩
      · rw [abs_neg, abs_of_nonneg (by positivity)]
        exact le_of_eq (by ring)
      · nlinarith [sq_nonneg x, sq_nonneg y]
      · simp [q00, q11]; field_simp; ring
      · simp [q00, q11]; field_simp; ring
      · simp [q00, q01, q10, q11]; field_simp; ring

/-- C107: `LU` (without row exchanges) on two positive nodes of any type contracts for every `z` with non-positive real part. -/
theorem C107_lu (ext : ExternalNum) (k : Option ℤ) (c : Collocation 2) (hc : Collocation.new 2 nt qt 0 1 = .ok c) (h0 : 0 < c.nodes 0)
    (hlu : IsPLU c.Qᵀ (ext.lu c.Qᵀ).1 (ext.lu c.Qᵀ).2.1 (ext.lu c.Qᵀ).2.2) (hP : (ext.lu c.Qᵀ).1 = 1) :
    ∃ A : Matrix (Fin 2) (Fin 2) ℝ, getQD ext "LU" (kwQ c.Q) k = .ok ⟨2, A⟩ ∧ ∀ z : ℂ, z.re ≤ 0 → SweepsContract z c.Q A := by
  obtain ⟨-, hL1, hL0, hU0, heq⟩ := hlu
  rw [hP, Matrix.one_mul] at heq
  refine ⟨computeLU ext c.Q, rfl, ?_⟩
  have hA : computeLU ext c.Q = (ext.lu c.Qᵀ).2.2ᵀ := rfl
  rw [hA]
  set L := (ext.lu c.Qᵀ).2.1
  set U := (ext.lu c.Qᵀ).2.2
  have hent : ∀ i j, c.Q j i = L i 0 * U 0 j + L i 1 * U 1 j := fun i j => by
    have := congrFun (congrFun heq i) j
    rwa [transpose_apply, mul_apply, Fin.sum_univ_two] at this
  have l00 := hL1 0
  have l11 := hL1 1
  have l01 := hL0 0 1 (by decide)
  have u10 := hU0 1 0 (by decide)
  have a00 := hent 0 0
  have a01 := hent 1 0
  have a10 := hent 0 1
  have a11 := hent 1 1
  rw [l00, l01] at a00 a10
  rw [l11, u10] at a01
  rw [l11] at a11
  obtain ⟨hlt, q00, q01, q10, q11⟩ := two_nodes c hc
  generalize c.nodes 0 = x at *
  generalize c.nodes 1 = y at *
  have hd : 0 < y - x := by linarith
  have hy : 0 < y := h0.trans hlt
  have hyx : 0 < 2 * y - x := by linarith
  have nd := hd.ne'
  have nyx := hyx.ne'
  have hu00 : U 0 0 = x * (2 * y - x) / (2 * (y - x)) := by rw [← q00, a00]; ring
  have hu01 : U 0 1 = y ^ 2 / (2 * (y - x)) := by rw [← q10, a10]; ring
  have hpos : 0 < U 0 0 := by rw [hu00]; positivity
  have hl : L 1 0 = -(x / (2 * y - x)) := by
    have : L 1 0 * U 0 0 = -x ^ 2 / (2 * (y - x)) := by rw [← q01, a01]; ring
    rw [← mul_left_inj' hpos.ne', this, hu00]
    field_simp
  have hu11 : U 1 1 = y * (y - x) / (2 * y - x) := by
    have : U 1 1 = c.Q 1 1 - L 1 0 * U 0 1 := by rw [a11]; ring
    rw [this, q11, hl, hu01]
    generalize hw : 2 * y - x = w at *
    field_simp
    rw [← hw]
    ring
  have hpos1 : 0 < U 1 1 := by rw [hu11]; positivity
  intro z hz
  refine contract_two (p := U 0 0) (q := U 1 1) (α := 0) (β := x * y ^ 2 / (2 * (y - x) * (2 * y - x))) hpos.le hpos1.le (by simp; positivity) ?_
    (by simp) (by simp [u10]) ?_ ?_ ?_ hz
  · have h1 : x * y ^ 2 / (2 * (y - x) * (2 * y - x)) ≤ U 0 0 := by
      rw [hu00, div_le_div_iff₀ (by positivity) (by positivity)]
      have : y ^ 2 ≤ (2 * y - x) ^ 2 := pow_le_pow_left₀ hy.le (by linarith) 2
      have h2 := mul_le_mul_of_nonneg_left this (show 0 ≤ x * (2 * (y - x)) by positivity)
      linarith
    have h2 := pow_le_pow_left₀ (by positivity) h1 2
    have := sq_nonneg (U 1 1)
    linarith
  · simp only [transpose_apply]
    rw [q00, q11, hu00, hu11]
    field_simp
    ring
  · simp only [transpose_apply]
    rw [u10, q00, q01, q11, hu00, hu01, hu11]
    field_simp
    ring
  · simp only [transpose_apply]
    rw [u10, q00, q01, q10, q11, hu00, hu01, hu11]
    field_simp
    ring

/-- C107: `GS`, `QPar` and `LDU` on two positive nodes `x < y` with `3 x y ≤ x² + y²` (`x ≤ 0.38 y`) contract for every `z` with non-positive
real part. -/
theorem C107_q_based (ext : ExternalNum) (k : Option ℤ) (c : Collocation 2) (hc : Collocation.new 2 nt qt 0 1 = .ok c) (h0 : 0 < c.nodes 0)
    (hxy : 3 * c.nodes 0 * c.nodes 1 ≤ c.nodes 0 ^ 2 + c.nodes 1 ^ 2) (name : String) (hname : name ∈ ["GS", "QPar", "LDU"]) :
    ∃ A : Matrix (Fin 2) (Fin 2) ℝ, getQD ext name (kwQ c.Q) k = .ok ⟨2, A⟩ ∧ ∀ z : ℂ, z.re ≤ 0 → SweepsContract z c.Q A := by
  obtain ⟨-, -, ⟨A1, hA1, e1⟩, A2, hA2, e2⟩ := C48_Q_based ext c.Q k
  obtain ⟨A3, hA3, e3, e4⟩ := C43_by_name ext c.Q k
  obtain ⟨hlt, q00, q01, q10, q11⟩ := two_nodes c hc
  have hpos : 0 < c.Q 0 0 := by
    rw [q00]
    exact div_pos (mul_pos h0 (by linarith)) (by linarith)
  obtain ⟨L, U, hL1, hL0, hU1, hU0, hLDU⟩ := e4 fun k hk => by
    have : k = 0 ∨ k = 1 := by omega
    rcases this with rfl | rfl
    · simp
    · simpa [det_fin_one, Fin.castLE] using hpos.ne'
  have hent : ∀ i j, c.Q i j = L i 0 * A3 0 0 * U 0 j + L i 1 * A3 1 1 * U 1 j := fun i j => by
    have := congrFun (congrFun hLDU i) j
    rw [mul_apply, Fin.sum_univ_two, mul_apply, mul_apply, Fin.sum_univ_two, Fin.sum_univ_two, e3 1 0 (by decide), e3 0 1 (by decide)] at this
    rw [← this]
    ring
  have b00 := hent 0 0
  have b01 := hent 0 1
  have b10 := hent 1 0
  have b11 := hent 1 1
  rw [hL1, hL0 0 1 (by decide)] at b00 b01
  rw [hU1] at b00
  rw [hL1, hU1, hU0 1 0 (by decide)] at b10
  rw [hL1, hU1] at b11
  have d3 : A3 0 0 = c.Q 0 0 := by rw [b00]; ring
  generalize c.nodes 0 = x at *
  generalize c.nodes 1 = y at *
  have hd : 0 < y - x := by linarith
  have hy : 0 < y := h0.trans hlt
  have hyx : 0 < 2 * y - x := by linarith
  have nd := hd.ne'
  have nyx := hyx.ne'
  have h2x : 0 ≤ y - 2 * x := by nlinarith [mul_pos h0 hd]
  have d4 : A3 1 1 = y * (y - x) / (2 * y - x) := by
    have h1 : c.Q 1 0 * c.Q 0 1 = c.Q 0 0 * (c.Q 1 1 - A3 1 1) := by
      rw [← d3, b10, b01, b11]; ring
    have h2 : A3 1 1 = c.Q 1 1 - c.Q 1 0 * c.Q 0 1 / c.Q 0 0 := by
      rw [h1]; field_simp; ring
    rw [h2, q00, q01, q10, q11]
    generalize hw : 2 * y - x = w at *
    field_simp
    rw [← hw]
    ring
  have h11 : 0 ≤ c.Q 1 1 := by rw [q11]; positivity
  have hm : |c.Q 0 1 * c.Q 1 0| ≤ c.Q 0 0 * c.Q 1 1 := by
    rw [q00, q01, q10, q11, neg_div, neg_mul, abs_neg, abs_of_nonneg (by positivity), div_mul_div_comm, div_mul_div_comm]
    refine div_le_div_of_nonneg_right ?_ (by positivity)
    have := mul_le_mul_of_nonneg_left hxy (show 0 ≤ 2 * (x * y) by positivity)
    nlinarith
  simp only [List.mem_cons, List.not_mem_nil, or_false] at hname
  rcases hname with rfl | rfl | rfl
  · refine ⟨A2, hA2, fun z hz => contract_two (p := c.Q 0 0) (q := c.Q 1 1) (α := c.Q 0 1 * c.Q 1 0) (β := 0) hpos.le h11 hm ?_ ?_ ?_ ?_ ?_ ?_ hz⟩ <;>
      simp [e2] <;> first | positivity | ring
  · refine ⟨A1, hA1, fun z hz => contract_of_pencil (fun ν hν l hl hl0 => ?_) hz⟩
    have h := ne_of_factor (ν := ν ^ 2) (by rw [norm_pow]; exact pow_le_one₀ (norm_nonneg _) hν)
      (two_factors (β := 0) hpos.le h11 hm (by have := sq_nonneg (c.Q 0 0); have := sq_nonneg (c.Q 1 1); linarith) hl hl0)
    rw [pencil_det]
    convert h using 1
    simp [e1]
    ring
  · refine ⟨A3, hA3, fun z hz => contract_of_pencil (fun ν hν l hl hl0 => ?_) hz⟩
    rw [pencil_det, e3 0 1 (by decide), e3 1 0 (by decide), d3]
    set p := c.Q 0 0 with hp
    set q := A3 1 1 with hq
    set t := c.Q 1 1 - A3 1 1 with ht
    have htp : c.Q 0 1 * c.Q 1 0 = t * p := by
      rw [ht, b11, b01, b10, ← d3]; ring
    have hq0 : 0 < q := by rw [d4]; positivity
    have htq : 2 * |t| ≤ q := by
      have ht' : t = -(x * y ^ 2 / (2 * (y - x) * (2 * y - x))) := by
        rw [ht, ← hq, d4, q11]
        generalize hw : 2 * y - x = w at *
        field_simp
        rw [← hw]
        ring
      rw [ht', abs_neg, abs_of_nonneg (by positivity), d4, ← mul_div_assoc, div_le_div_iff₀ (by positivity) hyx]
      have h1 : x * y ≤ (y - x) ^ 2 := by linarith [hxy, show (y - x) ^ 2 = x ^ 2 + y ^ 2 - 2 * (x * y) by ring]
      have h2 := mul_le_mul_of_nonneg_left h1 (show 0 ≤ 2 * y * (2 * y - x) by positivity)
      linarith
    have hlq : q < ‖l - q‖ := by
      have h1 : q ^ 2 < ‖l - q‖ ^ 2 := by
        rw [Complex.sq_norm, Complex.normSq_apply]
        simp only [Complex.sub_re, Complex.sub_im, Complex.ofReal_re, Complex.ofReal_im, sub_zero]
        have h2 := mul_nonneg hq0.le (neg_nonneg.2 hl)
        have h3 : 0 < l.re ^ 2 + l.im ^ 2 := by
          have := Complex.normSq_pos.2 hl0
          rw [Complex.normSq_apply] at this
          linarith [sq l.re, sq l.im]
        nlinarith
      exact lt_of_pow_lt_pow_left₀ 2 (norm_nonneg _) h1
    have hlp : p ≤ ‖l - p‖ := by
      have := (Complex.abs_re_le_norm (l - p))
      rw [Complex.sub_re, Complex.ofReal_re, abs_of_nonpos (by linarith)] at this
      linarith
    have h1 : ‖(t:ℂ) * (l - p + ν * p)‖ < ‖(l - p) * (l - q)‖ := by
      rw [norm_mul, norm_mul, Complex.norm_real, Real.norm_eq_abs]
      have h2 : ‖l - p + ν * p‖ ≤ 2 * ‖l - p‖ := by
        refine (norm_add_le _ _).trans ?_
        rw [norm_mul, Complex.norm_real, Real.norm_of_nonneg hpos.le]
        have := mul_le_of_le_one_left hpos.le hν
        linarith
      calc |t| * ‖l - p + ν * p‖ ≤ |t| * (2 * ‖l - p‖) := mul_le_mul_of_nonneg_left h2 (abs_nonneg _)
        _ = ‖l - p‖ * (2 * |t|) := by ring
        _ < ‖l - p‖ * ‖l - q‖ := mul_lt_mul_of_pos_left (lt_of_le_of_lt htq hlq) (lt_of_lt_of_le hpos hlp)
    convert ne_of_factor hν h1 using 1
    have c1 : (c.Q 0 1 * c.Q 1 0 : ℂ) = t * p := by exact_mod_cast htp
    have c2 : (c.Q 1 1 - q : ℂ) = t := by rw [ht]; push_cast; ring
    simp only [Complex.ofReal_zero]
    linear_combination -ν ^ 2 * c1 - ν * (l - p) * c2

/-- C107: with `MIN-SR-NS` (half the nodes on the diagonal) sweeps on two positive nodes contract for every `z` with non-positive real part. -/
theorem C107_minsrns (ext : ExternalNum) (k : Option ℤ) (c : Collocation 2) (hc : Collocation.new 2 nt qt 0 1 = .ok c) (h0 : 0 < c.nodes 0) :
    ∃ A : Matrix (Fin 2) (Fin 2) ℝ, getQD ext "MIN-SR-NS" (kwColl c) k = .ok ⟨2, A⟩ ∧ ∀ z : ℂ, z.re ≤ 0 → SweepsContract z c.Q A := by
  obtain ⟨A, hA, h⟩ := C107_time_stepping ext k c hc h0 "TRAPAR" (Or.inr (by simp))
  rw [(two_time ext c.nodes k).2.2.2] at hA
  cases hA
  refine ⟨computeMINSRNS c.nodes, rfl, ?_⟩
  have e : computeMINSRNS c.nodes = !![c.nodes 0 / 2, 0; 0, c.nodes 1 / 2] := by
    ext i j
    fin_cases i <;> fin_cases j <;> simp [computeMINSRNS]
  rw [e]
  exact h

/-- C107, the limits: sweeps with the trapezoidal rule on two positive nodes have an eigenvalue below `-1` for every strongly decaying equation,
and those with `BE` if the first node is more than three quarters of the second one. -/
theorem C107_stiff_fails (ext : ExternalNum) (k : Option ℤ) (c : Collocation 2) (hc : Collocation.new 2 nt qt 0 1 = .ok c) (h0 : 0 < c.nodes 0) :
    (∀ name ∈ ["TRAP", "CN"], ∃ A : Matrix (Fin 2) (Fin 2) ℝ, getQD ext name (kwTime c.nodes 0) k = .ok ⟨2, A⟩ ∧
      ∀ s : ℝ, 0 < s → 2 + s * (c.nodes 1 - c.nodes 0) < (s * c.nodes 0) ^ 2 →
        (1 - (-(s:ℂ)) • cmat A).det ≠ 0 ∧ ∃ μ ∈ spectrum ℂ (sweepMatrix (-(s:ℂ)) c.Q A), 1 < ‖μ‖) ∧
    (∀ name ∈ ["BE", "IE"], ∃ A : Matrix (Fin 2) (Fin 2) ℝ, getQD ext name (kwTime c.nodes 0) k = .ok ⟨2, A⟩ ∧
      ∀ s : ℝ, 0 < s → 2 + s * (3 * c.nodes 1 - c.nodes 0) < s ^ 2 * c.nodes 0 * (4 * c.nodes 0 - 3 * c.nodes 1) →
        (1 - (-(s:ℂ)) • cmat A).det ≠ 0 ∧ ∃ μ ∈ spectrum ℂ (sweepMatrix (-(s:ℂ)) c.Q A), 1 < ‖μ‖) := by
  obtain ⟨t1, t2, -, -⟩ := two_time ext c.nodes k
  obtain ⟨hlt, q00, q01, q10, q11⟩ := two_nodes c hc
  generalize c.nodes 0 = x at *
  generalize c.nodes 1 = y at *
  have hd : 0 < y - x := by linarith
  refine ⟨fun name h => ⟨_, t2 name h, fun s hs hsx => grows_of_det ?_ ?_⟩, fun name h => ⟨_, t1 name h, fun s hs hsx => grows_of_det ?_ ?_⟩⟩
  · rw [det_fin_two]
    simp
    positivity
  · have e : (1 - s • (c.Q - (2:ℝ) • !![x / 2, 0; y / 2, (y - x) / 2])).det = (2 + s * (y - x) - (s * x) ^ 2) / 2 := by
      rw [det_fin_two]
      simp [q00, q01, q10, q11]
      field_simp
      ring
    rw [e]
    linarith
  · rw [det_fin_two]
    simp
    positivity
  · have e : (1 - s • (c.Q - (2:ℝ) • !![x, 0; x, y - x])).det = (2 + s * (3 * y - x) - s ^ 2 * x * (4 * x - 3 * y)) / 2 := by
      rw [det_fin_two]
      simp [q00, q01, q10, q11]
      field_simp
      ring
    rw [e]
    linarith

/-- `scipy.linalg.lu` on two rows without exchange. -/
noncomputable def luTwoExt : ExternalNum where
  lu := fun {n} A => if h : n = 2 then
      ((1 : Matrix (Fin n) (Fin n) ℝ), fun i j => if i = j then 1 else if j < i then A i j / A j j else 0,
        fun i j => if j < i then 0 else if i = j ∧ (i:ℕ) = 1 then A i j - A i ⟨0, by omega⟩ * A ⟨0, by omega⟩ j / A ⟨0, by omega⟩ ⟨0, by omega⟩
          else A i j) else (1, 1, 1)
  fsolve := fun _ x => x
  minimize := fun _ x => x

-- all generators of C107 on the two nodes of Radau IIA, `1/3` and `1`; the trapezoidal rule diverges for `u' = -9 u` on them
example (ext : ExternalNum) (k : Option ℤ) : ∃ c : Collocation 2, Collocation.new 2 "LEGENDRE" "RADAU-RIGHT" 0 1 = .ok c ∧
    (∃ A : Matrix (Fin 2) (Fin 2) ℝ, getQD ext "BE" (kwTime c.nodes 0) k = .ok ⟨2, A⟩ ∧ ∀ z : ℂ, z.re ≤ 0 → SweepsContract z c.Q A) ∧
    (∃ A : Matrix (Fin 2) (Fin 2) ℝ, getQD luTwoExt "LU" (kwQ c.Q) k = .ok ⟨2, A⟩ ∧ ∀ z : ℂ, z.re ≤ 0 → SweepsContract z c.Q A) ∧
    (∃ A : Matrix (Fin 2) (Fin 2) ℝ, getQD ext "LDU" (kwQ c.Q) k = .ok ⟨2, A⟩ ∧ ∀ z : ℂ, z.re ≤ 0 → SweepsContract z c.Q A) ∧
    (∃ A : Matrix (Fin 2) (Fin 2) ℝ, getQD ext "MIN-SR-NS" (kwColl c) k = .ok ⟨2, A⟩ ∧ ∀ z : ℂ, z.re ≤ 0 → SweepsContract z c.Q A) ∧
    ∃ A : Matrix (Fin 2) (Fin 2) ℝ, getQD ext "TRAP" (kwTime c.nodes 0) k = .ok ⟨2, A⟩ ∧
      ∃ μ ∈ spectrum ℂ (sweepMatrix (-((9:ℝ):ℂ)) c.Q A), 1 < ‖μ‖ := by
  obtain ⟨c, hc⟩ := collocation_new_ok (M := 2) (nt := "LEGENDRE") (qt := "RADAU-RIGHT") (by decide)
    (by decide) ⟨by norm_num, fun _ => by norm_num⟩ 0 1
  obtain ⟨h0, h1⟩ := (legendre_two c hc).1 rfl
  have hp : 0 < c.nodes 0 := by rw [h0]; norm_num
  obtain ⟨-, q00, q01, q10, q11⟩ := two_nodes c hc
  rw [h0, h1] at q00 q01 q10 q11
  norm_num at q00 q01 q10 q11
  refine ⟨c, hc, C107_time_stepping ext k c hc hp "BE" (Or.inl ⟨by simp, by rw [h0, h1]; norm_num⟩), ?_,
    C107_q_based ext k c hc hp (by rw [h0, h1]; norm_num) "LDU" (by simp), C107_minsrns ext k c hc hp, ?_⟩
  · refine C107_lu luTwoExt k c hc hp ⟨⟨1, fun i j => ?_⟩, fun i => ?_, fun i j h => ?_, fun i j h => ?_, ?_⟩ rfl
    · change (1 : Matrix (Fin 2) (Fin 2) ℝ) i j = _
      rw [Matrix.one_apply]; rfl
    · simp [luTwoExt]
    · simp [luTwoExt, h.ne, not_lt.2 h.le]
    · simp [luTwoExt, h]
    · rw [show (luTwoExt.lu c.Qᵀ).1 = 1 from rfl, Matrix.one_mul]
      ext i j
      rw [Matrix.mul_apply, Fin.sum_univ_two]
      fin_cases i <;> fin_cases j <;> simp [luTwoExt, q00, q01, q10, q11] <;> norm_num
  · obtain ⟨A, hA, h⟩ := (C107_stiff_fails ext k c hc hp).1 "TRAP" (by simp)
    exact ⟨A, hA, (h 9 (by norm_num) (by rw [h0, h1]; norm_num)).2⟩

-- the Gauss nodes
example (ext : ExternalNum) (k : Option ℤ) (c : Collocation 2) (hc : Collocation.new 2 "LEGENDRE" "GAUSS" 0 1 = .ok c) (name : String)
    (hname : name ∈ ["GS", "QPar", "LDU"]) : ∃ A : Matrix (Fin 2) (Fin 2) ℝ, getQD ext name (kwQ c.Q) k = .ok ⟨2, A⟩ ∧
    ∀ z : ℂ, z.re ≤ 0 → SweepsContract z c.Q A := by
  obtain ⟨h1, h2⟩ := (legendre_two c hc).2 rfl
  obtain ⟨-, hr, -, -⟩ := C24_collocation_nodes (by norm_num) c hc
  have h0 : 0 < c.nodes 0 := lt_of_le_of_ne (hr 0).1 fun h => by rw [← h] at h2; norm_num at h2
  refine C107_q_based ext k c hc h0 ?_ name hname
  nlinarith [congrArg (· ^ 2) h1]

end QMat
