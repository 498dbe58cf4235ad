import Verif.Lemmas.GrowTable
import Verif.Lemmas.TableSweepsEquid
import Verif.Lemmas.TableSweepsLegendre
import Verif.Props.MinTables

/-!
# C89: sweeps with the tabulated diagonal coefficients in the left half-plane
-/

namespace QMat

open Spec Matrix NodesGenerator Filter Topology

variable {M : ℕ}

theorem zero_rows {t : MinCoeffs.Table} (ht : t = MinCoeffs.MIN3 ∨ t = MinCoeffs.MIN_VDHS) {nt qt : String}
    {n : ℕ} {cs : List ℚ} (he : TableEntry t nt qt n cs) {c : Collocation n}
    (hc : Collocation.new n nt qt 0 1 = .ok c) (i : Fin n) (hi : ((cs.getD i 0 : ℚ) : ℝ) = 0) (j : Fin n) :
    c.Q i j = 0 := by
  obtain ⟨hinj, hQ⟩ := coll_monomials one_pos hc
  refine row_zero hinj hQ ?_ j
  have hz : zerosOk t = true := by rcases ht with rfl | rfl <;> decide +kernel
  obtain ⟨rfl, h0⟩ := zero_coefficient hz he (table_matrix ht he).1 i.2 (by exact_mod_cast hi)
  obtain ⟨x, hx, hn⟩ := unmoved_lobatto c hc
  obtain ⟨x', hM, hs⟩ := collocation_spec hc
  have hxx : x = x' := by have := hs.getNodes; rw [hx] at this; exact Except.ok.inj this
  have : i = ⟨0, hM⟩ := Fin.ext h0
  rw [hn, this, hxx, hs.first (Or.inr rfl)]
  norm_num

/-- An entry whose data were checked. -/
theorem entry_sweeps {t : MinCoeffs.Table} (ht : t = MinCoeffs.MIN3 ∨ t = MinCoeffs.MIN_VDHS) {e : MinCert.Entry}
    (hok : MinCert.entryOk t e = true) {onReal : Bool} {K : ℕ} {r : ℚ}
    (h : HalfPlane.sweepsOk t e onReal K r = true) {c : Collocation e.size}
    (hc : Collocation.new e.size e.nodeType e.quadType 0 1 = .ok c) :
    ∃ A, computeFromTable t e.size e.nodeType e.quadType = .ok A ∧
      ∀ z, HalfPlane.InRegion onReal z → SweepsContract z c.Q A := by
  cases hcs : tableLookup t e.nodeType e.quadType e.size with
  | error _ => rw [HalfPlane.sweepsOk, hcs] at h; cases h
  | ok cs =>
    have he := min3_lookup ht hcs
    exact ⟨_, (table_matrix ht he).2, fun z hz => HalfPlane.entry_contracts hok hcs c hc h (zero_rows ht he hc) hz⟩

/-- Two Lobatto nodes: the square of a sweep vanishes for every step. -/
theorem lobatto_two_sweeps {c : Collocation 2} (hc : Collocation.new 2 "LEGENDRE" "LOBATTO" 0 1 = .ok c) {z : ℂ}
    (hz : z ≠ 2) : SweepsContract z c.Q (diagonal fun i : Fin 2 => ((([0, 1 / 2] : List ℚ).getD i 0 : ℚ) : ℝ)) := by
  obtain ⟨hinj, hQ⟩ := coll_monomials one_pos hc
  obtain ⟨x, hx, hn⟩ := unmoved_lobatto c hc
  obtain ⟨x', hM, hs⟩ := collocation_spec hc
  have hxx : x = x' := by have := hs.getNodes; rw [hx] at this; exact Except.ok.inj this
  subst hxx
  have h0 : c.nodes 0 = 0 := by
    have : x 0 = -1 := hs.first (Or.inr rfl)
    rw [hn, this]; norm_num
  have h1 : c.nodes 1 = 1 := by
    have : x 1 = 1 := hs.last (Or.inr rfl)
    rw [hn, this]; norm_num
  have q := hQ 1 (by norm_num) 1
  simp only [mulVec, dotProduct, Fin.sum_univ_two, h0, h1, pow_one] at q
  norm_num at q
  have r0 := row_zero hinj hQ h0
  set A : Matrix (Fin 2) (Fin 2) ℝ := diagonal fun i : Fin 2 => ((([0, 1 / 2] : List ℚ).getD i 0 : ℚ) : ℝ) with hA
  have e1 : (1 - z • cmat A) = !![1, 0; 0, 1 - z * (1 / 2)] := by
    ext i j
    fin_cases i <;> fin_cases j <;> simp [hA, cmat]
  have hdet : (1 - z • cmat A).det ≠ 0 := by
    rw [e1, det_fin_two_of]
    intro h
    apply hz
    linear_combination (-2) * h
  refine ⟨hdet, fun μ hμ => ?_⟩
  obtain ⟨v, hv, he⟩ := eigen_of_mem hμ
  have h2 : (1 - z • cmat A) *ᵥ (μ • v) = (z • cmat (c.Q - A)) *ᵥ v := by
    rw [← he, sweepMatrix, mulVec_mulVec, ← mul_assoc, mul_nonsing_inv _ (isUnit_iff_ne_zero.mpr hdet), one_mul]
  rw [e1] at h2
  have a0 := congrFun h2 0
  have a1 := congrFun h2 1
  simp [mulVec, dotProduct, Fin.sum_univ_two, cmat, hA, r0, q] at a0 a1
  by_contra hlt
  push Not at hlt
  have hμ0 : μ ≠ 0 := fun h => by rw [h, norm_zero] at hlt; linarith
  have v0 : v 0 = 0 := a0.resolve_left hμ0
  rw [v0, mul_zero] at a1
  have v1 : v 1 = 0 := by
    rcases mul_eq_zero.mp a1 with h | h
    · exfalso
      apply hz
      linear_combination (-2) * h
    · exact (mul_eq_zero.mp h).resolve_left hμ0
  exact hv (by funext i; fin_cases i <;> simp [v0, v1])

/-- The entries of `MIN3` checked in the left half-plane, and the other ones. -/
theorem min3_entries (nt qt : String) (n : ℕ) (h : ∃ cs, TableEntry MinCoeffs.MIN3 nt qt n cs) :
    (nt = "LEGENDRE" ∧ qt = "LOBATTO" ∧ n = 2) ∨
    (∃ e K r, e.nodeType = nt ∧ e.quadType = qt ∧ e.size = n ∧ MinCert.entryOk MinCoeffs.MIN3 e = true ∧
      HalfPlane.sweepsOk MinCoeffs.MIN3 e false K r = true) ∨
    (nt = "EQUID" ∧ qt = "RADAU-RIGHT" ∧ (n = 5 ∨ n = 7 ∨ n = 9) ∧
    ∃ e K r, e.nodeType = nt ∧ e.quadType = qt ∧ e.size = n ∧ MinCert.entryOk MinCoeffs.MIN3 e = true ∧
      HalfPlane.sweepsOk MinCoeffs.MIN3 e true K r = true) := by
  have hall : ∀ p ∈ MinCoeffs.MIN3, ∀ q ∈ p.2, ∀ r ∈ q.2, (p.1, q.1, r.1) ∈
      [("LEGENDRE", "LOBATTO", 2), ("LEGENDRE", "LOBATTO", 3), ("LEGENDRE", "LOBATTO", 4), ("LEGENDRE", "LOBATTO", 5),
        ("LEGENDRE", "LOBATTO", 7), ("LEGENDRE", "LOBATTO", 9), ("LEGENDRE", "RADAU-RIGHT", 2),
        ("LEGENDRE", "RADAU-RIGHT", 3), ("LEGENDRE", "RADAU-RIGHT", 4), ("LEGENDRE", "RADAU-RIGHT", 5),
        ("LEGENDRE", "RADAU-RIGHT", 7), ("LEGENDRE", "RADAU-RIGHT", 9), ("EQUID", "RADAU-RIGHT", 2),
        ("EQUID", "RADAU-RIGHT", 3), ("EQUID", "RADAU-RIGHT", 4), ("EQUID", "RADAU-RIGHT", 5),
        ("EQUID", "RADAU-RIGHT", 7), ("EQUID", "RADAU-RIGHT", 9)] := by decide +kernel
  obtain ⟨cs, t1, t2, m1, m2, m3⟩ := h
  have := hall _ m1 _ m2 _ m3
  simp only [List.mem_cons, List.not_mem_nil, or_false, Prod.mk.injEq] at this
  rcases this with ⟨rfl, rfl, rfl⟩ | ⟨rfl, rfl, rfl⟩ | ⟨rfl, rfl, rfl⟩ | ⟨rfl, rfl, rfl⟩ | ⟨rfl, rfl, rfl⟩ |
    ⟨rfl, rfl, rfl⟩ | ⟨rfl, rfl, rfl⟩ | ⟨rfl, rfl, rfl⟩ | ⟨rfl, rfl, rfl⟩ | ⟨rfl, rfl, rfl⟩ | ⟨rfl, rfl, rfl⟩ |
    ⟨rfl, rfl, rfl⟩ | ⟨rfl, rfl, rfl⟩ | ⟨rfl, rfl, rfl⟩ | ⟨rfl, rfl, rfl⟩ | ⟨rfl, rfl, rfl⟩ | ⟨rfl, rfl, rfl⟩ |
    ⟨rfl, rfl, rfl⟩
  · exact Or.inl ⟨rfl, rfl, rfl⟩
  · exact Or.inr (Or.inl ⟨_, _, _, rfl, rfl, rfl, MinCert.min3ll3_ok, HalfPlane.ll3_ok⟩)
  · exact Or.inr (Or.inl ⟨_, _, _, rfl, rfl, rfl, MinCert.min3ll4_ok, HalfPlane.ll4_ok⟩)
  · exact Or.inr (Or.inl ⟨_, _, _, rfl, rfl, rfl, MinCert.min3ll5_ok, HalfPlane.ll5_ok⟩)
  · exact Or.inr (Or.inl ⟨_, _, _, rfl, rfl, rfl, MinCert.min3ll7_ok, HalfPlane.ll7_ok⟩)
  · exact Or.inr (Or.inl ⟨_, _, _, rfl, rfl, rfl, MinCert.min3ll9_ok, HalfPlane.ll9_ok⟩)
  · exact Or.inr (Or.inl ⟨_, _, _, rfl, rfl, rfl, MinCert.min3lr2_ok, HalfPlane.lr2_ok⟩)
  · exact Or.inr (Or.inl ⟨_, _, _, rfl, rfl, rfl, MinCert.min3lr3_ok, HalfPlane.lr3_ok⟩)
  · exact Or.inr (Or.inl ⟨_, _, _, rfl, rfl, rfl, MinCert.min3lr4_ok, HalfPlane.lr4_ok⟩)
  · exact Or.inr (Or.inl ⟨_, _, _, rfl, rfl, rfl, MinCert.min3lr5_ok, HalfPlane.lr5_ok⟩)
  · exact Or.inr (Or.inl ⟨_, _, _, rfl, rfl, rfl, MinCert.min3lr7_ok, HalfPlane.lr7_ok⟩)
  · exact Or.inr (Or.inl ⟨_, _, _, rfl, rfl, rfl, MinCert.min3lr9_ok, HalfPlane.lr9_ok⟩)
  · exact Or.inr (Or.inl ⟨_, _, _, rfl, rfl, rfl, MinCert.min3er2_ok, HalfPlane.er2_ok⟩)
  · exact Or.inr (Or.inl ⟨_, _, _, rfl, rfl, rfl, MinCert.min3er3_ok, HalfPlane.er3_ok⟩)
  · exact Or.inr (Or.inl ⟨_, _, _, rfl, rfl, rfl, MinCert.min3er4_ok, HalfPlane.er4_ok⟩)
  · exact Or.inr (Or.inr ⟨rfl, rfl, Or.inl rfl, _, _, _, rfl, rfl, rfl, MinCert.min3er5_ok, HalfPlane.er5_ok⟩)
  · exact Or.inr (Or.inr ⟨rfl, rfl, Or.inr (Or.inl rfl), _, _, _, rfl, rfl, rfl, MinCert.min3er7_ok, HalfPlane.er7_ok⟩)
  · exact Or.inr (Or.inr ⟨rfl, rfl, Or.inr (Or.inr rfl), _, _, _, rfl, rfl, rfl, MinCert.min3er9_ok, HalfPlane.er9_ok⟩)

theorem min3_getQD (ext : ExternalNum) (k : Option ℤ) {nt qt : String} {n : ℕ} {c : Collocation n}
    (hc : Collocation.new n nt qt 0 1 = .ok c) {A : Matrix (Fin n) (Fin n) ℝ}
    (hA : computeFromTable MinCoeffs.MIN3 n nt qt = .ok A) : getQD ext "MIN3" (kwColl c) k = .ok ⟨n, A⟩ := by
  obtain ⟨hnt, hqt⟩ := coll_types hc
  rw [(C49_generators ext c k).1, hnt, hqt, hA]
  rfl

theorem lobatto_two_matrix : computeFromTable MinCoeffs.MIN3 2 "LEGENDRE" "LOBATTO" =
    .ok (diagonal fun i : Fin 2 => ((([0, 1 / 2] : List ℚ).getD i 0 : ℚ) : ℝ)) := by
  have he : TableEntry MinCoeffs.MIN3 "LEGENDRE" "LOBATTO" 2 [0, 1 / 2] :=
    ⟨_, _, List.mem_cons_self, List.mem_cons_self, by decide +kernel⟩
  exact (table_matrix (Or.inl rfl) he).2

theorem min3_has (nt qt : String) (n : ℕ) (h : (tableLookup MinCoeffs.MIN3 nt qt n).isOk = true) :
    ∃ cs, TableEntry MinCoeffs.MIN3 nt qt n cs := by
  cases hcs : tableLookup MinCoeffs.MIN3 nt qt n with
  | error _ => rw [hcs] at h; cases h
  | ok cs => exact ⟨cs, min3_lookup (Or.inl rfl) hcs⟩

/-- C89: with the matrix `MIN3` returns, all eigenvalues of a sweep have modulus less than one for every `z = λ Δt` in
the closed left half-plane: all entries of the table with Legendre nodes, and equidistant ones up to four nodes. -/
theorem C89_left_half_plane (ext : ExternalNum) (k : Option ℤ) {nt qt : String} {n : ℕ}
    (h : ∃ cs, TableEntry MinCoeffs.MIN3 nt qt n cs) (hn : nt = "LEGENDRE" ∨ n ≤ 4) (c : Collocation n)
    (hc : Collocation.new n nt qt 0 1 = .ok c) :
    ∃ A : Matrix (Fin n) (Fin n) ℝ, getQD ext "MIN3" (kwColl c) k = .ok ⟨n, A⟩ ∧
      ∀ z : ℂ, z.re ≤ 0 → SweepsContract z c.Q A := by
  rcases min3_entries nt qt n h with ⟨rfl, rfl, rfl⟩ | ⟨e, K, r, rfl, rfl, rfl, h1, h2⟩ | ⟨rfl, -, h5, -⟩
  · refine ⟨_, min3_getQD ext k hc lobatto_two_matrix, fun z hz => lobatto_two_sweeps hc ?_⟩
    rintro rfl
    norm_num at hz
  · obtain ⟨A, hA, hS⟩ := entry_sweeps (Or.inl rfl) h1 h2 hc
    exact ⟨A, min3_getQD ext k hc hA, fun z hz => hS z ⟨hz, by simp⟩⟩
  · rcases hn with hn | hn
    · exact absurd hn (by decide)
    · omega

/-- Instance: nine Radau nodes. -/
example (ext : ExternalNum) : ∃ (c : Collocation 9) (A : Matrix (Fin 9) (Fin 9) ℝ),
    Collocation.new 9 "LEGENDRE" "RADAU-RIGHT" 0 1 = .ok c ∧ getQD ext "MIN3" (kwColl c) none = .ok ⟨9, A⟩ ∧
    SweepsContract (1000 * Complex.I) c.Q A ∧ SweepsContract (-7 + 2 * Complex.I) c.Q A := by
  obtain ⟨c, hc⟩ := collocation_new_ok (M := 9) (nt := "LEGENDRE") (qt := "RADAU-RIGHT") (by decide)
    (by decide) (by simp [ValidSize]) 0 1
  obtain ⟨A, hA, h⟩ := C89_left_half_plane ext none (min3_has _ _ _ (by decide +kernel)) (Or.inl rfl) c hc
  exact ⟨c, A, hc, hA, h _ (by simp), h _ (by simp)⟩

/-- C89: on the negative real axis this holds for every entry of the table. -/
theorem C89_negative_axis (ext : ExternalNum) (k : Option ℤ) {nt qt : String} {n : ℕ}
    (h : ∃ cs, TableEntry MinCoeffs.MIN3 nt qt n cs) (c : Collocation n)
    (hc : Collocation.new n nt qt 0 1 = .ok c) :
    ∃ A : Matrix (Fin n) (Fin n) ℝ, getQD ext "MIN3" (kwColl c) k = .ok ⟨n, A⟩ ∧
      ∀ x : ℝ, x ≤ 0 → SweepsContract x c.Q A := by
  rcases min3_entries nt qt n h with ⟨rfl, rfl, rfl⟩ | ⟨e, K, r, rfl, rfl, rfl, h1, h2⟩ |
      ⟨rfl, rfl, h5, e, K, r, he1, he2, rfl, h1, h2⟩
  · obtain ⟨A, hA, hS⟩ := C89_left_half_plane ext k h (Or.inl rfl) c hc
    exact ⟨A, hA, fun x hx => hS x (by simpa using hx)⟩
  · obtain ⟨A, hA, hS⟩ := entry_sweeps (Or.inl rfl) h1 h2 hc
    exact ⟨A, min3_getQD ext k hc hA, fun x hx => hS x ⟨by simpa using hx, by simp⟩⟩
  · rw [← he1, ← he2] at hc
    obtain ⟨A, hA, hS⟩ := entry_sweeps (Or.inl rfl) h1 h2 hc
    exact ⟨A, min3_getQD ext k hc hA, fun x hx => hS x ⟨by simpa using hx, by simp⟩⟩

/-- Instance: nine equidistant nodes. -/
example (ext : ExternalNum) : ∃ (c : Collocation 9) (A : Matrix (Fin 9) (Fin 9) ℝ),
    Collocation.new 9 "EQUID" "RADAU-RIGHT" 0 1 = .ok c ∧ getQD ext "MIN3" (kwColl c) none = .ok ⟨9, A⟩ ∧
    SweepsContract ((-25 : ℝ) : ℂ) c.Q A := by
  obtain ⟨c, hc⟩ := collocation_new_ok (M := 9) (nt := "EQUID") (qt := "RADAU-RIGHT") (by decide)
    (by decide) (by simp [ValidSize]) 0 1
  obtain ⟨A, hA, h⟩ := C89_negative_axis ext none (min3_has _ _ _ (by decide +kernel)) c hc
  exact ⟨c, A, hc, hA, h _ (by norm_num)⟩

/-- The matrix of equidistant nodes in rational numbers, and what the check of a case means. -/
theorem equid_grows {n : ℕ} {y : ℤ} {k : ℕ} (h : Grow.caseOk n y k = true) (hn : n ≤ 158) (c : Collocation n)
    (hc : Collocation.new n "EQUID" "RADAU-RIGHT" 0 1 = .ok c) :
    ∃ A, computeFromTable MinCoeffs.MIN3 n "EQUID" "RADAU-RIGHT" = .ok A ∧
      (1 - ((y : ℂ) * Complex.I) • cmat A).det ≠ 0 ∧
      ∃ μ ∈ spectrum ℂ (sweepMatrix ((y : ℂ) * Complex.I) c.Q A), 1 < ‖μ‖ := by
  simp only [Grow.caseOk, Bool.and_eq_true, List.all_eq_true] at h
  obtain ⟨hrows, h⟩ := h
  cases hcs : tableLookup MinCoeffs.MIN3 "EQUID" "RADAU-RIGHT" n with
  | error _ => rw [hcs] at h; cases h
  | ok cs =>
    rw [hcs] at h
    have he := min3_lookup (Or.inl rfl) hcs
    have hx := SDCRat.equid_nodes hn c hc
    obtain ⟨hinj, hQm⟩ := coll_monomials one_pos hc
    set l := SDCRat.equid "RADAU-RIGHT" n with hl
    have hll : l.length = n := by simp [hl, SDCRat.equid]
    have hQ : c.Q = SDCRat.mat n (SDCRat.qmat l) := by
      funext i
      have hi : (i:ℕ) < l.length := by omega
      have e : SDCRat.mat n (SDCRat.qmat l) i = SDCRat.vec n (SDCRat.intRow l (l.getD i 0)) := by
        change SDCRat.vec n ((SDCRat.qmat l).getD i []) = _
        simp [SDCRat.qmat, List.getD_eq_getElem?_getD, hi]
      rw [e]
      refine SDCRat.row_unique hinj hll hx (hrows _ ?_) fun k hk => ?_
      · rw [List.getD_eq_getElem?_getD, List.getElem?_eq_getElem hi]
        exact List.getElem_mem hi
      · have := hQm k hk i
        rw [hx] at this ⊢
        exact this
    refine ⟨_, (table_matrix (Or.inl rfl) he).2, ?_⟩
    rw [hQ]
    exact Grow.sweepGrows_sound h

/-- C89: with five, seven and nine equidistant nodes the sweeps with `MIN3` do not converge for all oscillatory problems:
for `λ Δt = 10 i`, `13 i`, `14 i` they are defined and have an eigenvalue of modulus larger than one. -/
theorem C89_imaginary_axis_fails (ext : ExternalNum) (k : Option ℤ) {n : ℕ} {y : ℝ}
    (h : (n = 5 ∧ y = 10) ∨ (n = 7 ∧ y = 13) ∨ (n = 9 ∧ y = 14)) (c : Collocation n)
    (hc : Collocation.new n "EQUID" "RADAU-RIGHT" 0 1 = .ok c) :
    ∃ A : Matrix (Fin n) (Fin n) ℝ, getQD ext "MIN3" (kwColl c) k = .ok ⟨n, A⟩ ∧
      (1 - (y * Complex.I) • cmat A).det ≠ 0 ∧
      ∃ μ ∈ spectrum ℂ (sweepMatrix (y * Complex.I) c.Q A), 1 < ‖μ‖ := by
  rcases h with ⟨rfl, rfl⟩ | ⟨rfl, rfl⟩ | ⟨rfl, rfl⟩
  · obtain ⟨A, hA, hS⟩ := equid_grows Grow.five_ok (by norm_num) c hc
    exact ⟨A, min3_getQD ext k hc hA, by simpa using hS⟩
  · obtain ⟨A, hA, hS⟩ := equid_grows Grow.seven_ok (by norm_num) c hc
    exact ⟨A, min3_getQD ext k hc hA, by simpa using hS⟩
  · obtain ⟨A, hA, hS⟩ := equid_grows Grow.nine_ok (by norm_num) c hc
    exact ⟨A, min3_getQD ext k hc hA, by simpa using hS⟩

/-- Instance: seven nodes. -/
example (ext : ExternalNum) : ∃ (c : Collocation 7) (A : Matrix (Fin 7) (Fin 7) ℝ),
    Collocation.new 7 "EQUID" "RADAU-RIGHT" 0 1 = .ok c ∧ getQD ext "MIN3" (kwColl c) none = .ok ⟨7, A⟩ ∧
    ¬ SweepsContract (13 * Complex.I) c.Q A := by
  obtain ⟨c, hc⟩ := collocation_new_ok (M := 7) (nt := "EQUID") (qt := "RADAU-RIGHT") (by decide)
    (by decide) (by simp [ValidSize]) 0 1
  obtain ⟨A, hA, -, μ, hμ, h1⟩ := C89_imaginary_axis_fails ext none (y := 13) (Or.inr (Or.inl ⟨rfl, rfl⟩)) c hc
  refine ⟨c, A, hc, hA, fun h => ?_⟩
  have := h.2 μ (by simpa using hμ)
  linarith

/-- C89: the same for the table of `VDHS`. -/
theorem C89_vdhs (ext : ExternalNum) (k : Option ℤ) {n : ℕ} (hn : n = 3 ∨ n = 4) (c : Collocation n)
    (hc : Collocation.new n "LEGENDRE" "RADAU-RIGHT" 0 1 = .ok c) :
    ∃ A : Matrix (Fin n) (Fin n) ℝ, getQD ext "VDHS" (kwColl c) k = .ok ⟨n, A⟩ ∧
      ∀ z : ℂ, z.re ≤ 0 → SweepsContract z c.Q A := by
  obtain ⟨hnt, hqt⟩ := coll_types hc
  rcases hn with rfl | rfl
  · obtain ⟨A, hA, hS⟩ := entry_sweeps (Or.inr rfl) MinCert.vdhslr3_ok HalfPlane.vr3_ok hc
    refine ⟨A, ?_, fun z hz => hS z ⟨hz, by simp⟩⟩
    rw [(C49_generators ext c k).2, hnt, hqt]
    exact congrArg (· >>= fun A => Except.ok (⟨3, A⟩ : Sigma fun n => Matrix (Fin n) (Fin n) ℝ)) hA
  · obtain ⟨A, hA, hS⟩ := entry_sweeps (Or.inr rfl) MinCert.vdhslr4_ok HalfPlane.vr4_ok hc
    refine ⟨A, ?_, fun z hz => hS z ⟨hz, by simp⟩⟩
    rw [(C49_generators ext c k).2, hnt, hqt]
    exact congrArg (· >>= fun A => Except.ok (⟨4, A⟩ : Sigma fun n => Matrix (Fin n) (Fin n) ℝ)) hA

/-- Instance: four nodes. -/
example (ext : ExternalNum) : ∃ (c : Collocation 4) (A : Matrix (Fin 4) (Fin 4) ℝ),
    getQD ext "VDHS" (kwColl c) none = .ok ⟨4, A⟩ ∧ SweepsContract (3 * Complex.I) c.Q A := by
  obtain ⟨c, hc⟩ := collocation_new_ok (M := 4) (nt := "LEGENDRE") (qt := "RADAU-RIGHT") (by decide)
    (by decide) (by simp [ValidSize]) 0 1
  obtain ⟨A, hA, h⟩ := C89_vdhs ext none (Or.inr rfl) c hc
  exact ⟨c, A, hA, h _ (by simp)⟩

/-- C89: hence SDC with these matrices converges to the collocation solution for every step of every problem whose
solutions do not grow. -/
theorem C89_convergence (ext : ExternalNum) (k : Option ℤ) {nt qt : String} {n : ℕ}
    (h : ∃ cs, TableEntry MinCoeffs.MIN3 nt qt n cs) (hn : nt = "LEGENDRE" ∨ n ≤ 4) (c : Collocation n)
    (hc : Collocation.new n nt qt 0 1 = .ok c) :
    ∃ A : Matrix (Fin n) (Fin n) ℝ, getQD ext "MIN3" (kwColl c) k = .ok ⟨n, A⟩ ∧
      ∀ (z : ℂ), z.re ≤ 0 → ∀ (u : ℂ) (U : ℕ → Fin n → ℂ), (∀ K, SDCIterates z c.Q (fun _ => A) K u U) →
        ∃ v, IsCollocationSolution z c.Q u v ∧ Tendsto U atTop (𝓝 v) := by
  obtain ⟨A, hA, hS⟩ := C89_left_half_plane ext k h hn c hc
  refine ⟨A, hA, fun z hz u U hU => ?_⟩
  obtain ⟨v, hv, -, ht⟩ := C81_iterates z c.Q A (hS z hz) u U hU
  exact ⟨v, hv, ht⟩

/-- Instance: four equidistant nodes. -/
example (ext : ExternalNum) : ∃ (c : Collocation 4) (A : Matrix (Fin 4) (Fin 4) ℝ),
    Collocation.new 4 "EQUID" "RADAU-RIGHT" 0 1 = .ok c ∧ ∀ (u : ℂ) (U : ℕ → Fin 4 → ℂ),
      (∀ K, SDCIterates (10 * Complex.I) c.Q (fun _ => A) K u U) →
        ∃ v, IsCollocationSolution (10 * Complex.I) c.Q u v ∧ Tendsto U atTop (𝓝 v) := by
  obtain ⟨c, hc⟩ := collocation_new_ok (M := 4) (nt := "EQUID") (qt := "RADAU-RIGHT") (by decide)
    (by decide) (by simp [ValidSize]) 0 1
  obtain ⟨A, -, h⟩ := C89_convergence ext none (min3_has _ _ _ (by decide +kernel)) (Or.inr le_rfl) c hc
  exact ⟨c, A, hc, h _ (by simp)⟩

end QMat
