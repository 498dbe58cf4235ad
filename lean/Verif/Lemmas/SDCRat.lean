import Verif.Lemmas.SDCOrder
import Verif.Lemmas.NodesMirror
import Verif.Lemmas.TimeStep
import Verif.Props.CollOrder
import Verif.Props.Nilpotent

/-!
# Exact orders of SDC with rational coefficients, by computation on lists
-/

namespace QMat

open Matrix Spec NodesGenerator

namespace SDCRat

def dot (x y : List ℚ) : ℚ := (List.zipWith (· * ·) x y).foldr (· + ·) 0

def mv (A : List (List ℚ)) (v : List ℚ) : List ℚ := A.map fun r => dot r v

def vadd (x y : List ℚ) : List ℚ := List.zipWith (· + ·) x y

/-- Coefficient vectors of the next iterate from the ones of the last. -/
def sweep (D R : List (List ℚ)) (cur : List ℚ) : List (List ℚ) → List (List ℚ)
  | [] => [cur]
  | p :: ps => cur :: sweep D R (vadd (mv D cur) (mv R p)) ps

/-- Coefficient vectors `0..J` after `K` sweeps with the same matrix `D`, `R = Q - D`. -/
def taylor (D R : List (List ℚ)) (M J : ℕ) : ℕ → List (List ℚ)
  | 0 => List.replicate M 1 :: List.replicate J (List.replicate M 0)
  | K + 1 => sweep D R (List.replicate M 1) ((taylor D R M J K).take J)

/-- A vector of a list. -/
noncomputable def vec (M : ℕ) (l : List ℚ) : Fin M → ℝ := fun i => ((l.getD i 0 : ℚ) : ℝ)

noncomputable def mat (M : ℕ) (A : List (List ℚ)) : Matrix (Fin M) (Fin M) ℝ :=
  Matrix.of fun i => vec M (A.getD i [])

def Shape (M : ℕ) (A : List (List ℚ)) : Prop := A.length = M ∧ ∀ r ∈ A, r.length = M

theorem dot_cast (x y : List ℚ) (n : ℕ) (hx : x.length ≤ n) :
    ((dot x y : ℚ) : ℝ) = vec n x ⬝ᵥ vec n y := by
  induction x generalizing y n with
  | nil => simp [dot, vec, dotProduct]
  | cons a x ih =>
    obtain ⟨n, rfl⟩ : ∃ m, n = m + 1 := ⟨n - 1, by simp at hx; omega⟩
    cases y with
    | nil => simp [dot, vec, dotProduct]
    | cons b y =>
      have := ih y n (by simpa using hx)
      simp only [dot] at this ⊢
      simp only [List.zipWith_cons_cons, List.foldr_cons, Rat.cast_add, Rat.cast_mul, this]
      simp [vec, dotProduct, Fin.sum_univ_succ]

theorem vec_mv {M : ℕ} {A : List (List ℚ)} (hA : Shape M A) (v : List ℚ) :
    vec M (mv A v) = mat M A *ᵥ vec M v := by
  funext i
  have hi : (i:ℕ) < A.length := by rw [hA.1]; exact i.2
  have : (mv A v).getD i 0 = dot (A.getD i []) v := by
    simp [mv, List.getD_eq_getElem?_getD, hi]
  rw [vec, this, dot_cast _ _ M]
  · rfl
  · simp [List.getD_eq_getElem?_getD, hi, hA.2]

theorem vec_vadd {M : ℕ} {x y : List ℚ} (hx : x.length = M) (hy : y.length = M) :
    vec M (vadd x y) = vec M x + vec M y := by
  funext i
  have h1 : (i:ℕ) < x.length := by omega
  have h2 : (i:ℕ) < y.length := by omega
  simp [vec, vadd, List.getD_eq_getElem?_getD, h1, h2]

theorem vec_replicate (M : ℕ) (q : ℚ) : vec M (List.replicate M q) = fun _ => (q:ℝ) := by
  funext i
  simp [vec, List.getD_eq_getElem?_getD]

theorem mv_length {M : ℕ} {A : List (List ℚ)} (hA : Shape M A) (v : List ℚ) : (mv A v).length = M := by
  simp [mv, hA.1]

theorem sweep_length (D R : List (List ℚ)) (cur : List ℚ) (ps : List (List ℚ)) :
    (sweep D R cur ps).length = ps.length + 1 := by
  induction ps generalizing cur with
  | nil => rfl
  | cons p ps ih => simp [sweep, ih]

theorem sweep_spec {M : ℕ} {D R : List (List ℚ)} (hD : Shape M D) (hR : Shape M R)
    (c c' : ℕ → Fin M → ℝ) (hc : ∀ j, c' (j + 1) = mat M D *ᵥ c' j + mat M R *ᵥ c j)
    (ps : List (List ℚ)) (cur : List ℚ) (m : ℕ) (hcur : vec M cur = c' m)
    (hps : ∀ j < ps.length, vec M (ps.getD j []) = c (m + j)) :
    ∀ j ≤ ps.length, vec M ((sweep D R cur ps).getD j []) = c' (m + j) := by
  induction ps generalizing cur m with
  | nil =>
    intro j hj
    obtain rfl : j = 0 := by simpa using hj
    simpa [sweep] using hcur
  | cons p ps ih =>
    intro j hj
    cases j with
    | zero => simpa [sweep] using hcur
    | succ j =>
      have := ih (vadd (mv D cur) (mv R p)) (m + 1) ?_ ?_ j (by simpa using hj)
      · simp only [sweep, List.getD_cons_succ]
        rw [this]
        congr 1
        omega
      · rw [vec_vadd (mv_length hD _) (mv_length hR _), vec_mv hD, vec_mv hR, hcur, hc]
        have := hps 0 (by simp)
        simp only [List.getD_cons_zero, add_zero] at this
        rw [this]
      · intro j hj
        have := hps (j + 1) (by simpa using hj)
        simp only [List.getD_cons_succ] at this
        rw [this]
        congr 1
        omega

theorem taylor_spec {M : ℕ} {D R : List (List ℚ)} (hD : Shape M D) (hR : Shape M R)
    (J K : ℕ) : (taylor D R M J K).length = J + 1 ∧ ∀ j ≤ J,
      vec M ((taylor D R M J K).getD j []) =
        sdcTaylor (mat M D + mat M R) (fun _ => mat M D) K j := by
  induction K with
  | zero =>
    refine ⟨by simp [taylor], fun j hj => ?_⟩
    cases j with
    | zero =>
      simp only [taylor, List.getD_cons_zero]
      rw [vec_replicate]
      simp [sdcTaylor]
    | succ j =>
      have : (List.replicate J (List.replicate M (0:ℚ))).getD j [] = List.replicate M 0 := by
        simp [List.getD_eq_getElem?_getD, show j < J by omega]
      simp only [taylor, List.getD_cons_succ, this]
      rw [vec_replicate]
      simp [sdcTaylor]
  | succ K ih =>
    refine ⟨by simp [taylor, sweep_length, ih.1], fun j hj => ?_⟩
    have := sweep_spec hD hR (sdcTaylor (mat M D + mat M R) (fun _ => mat M D) K)
      (sdcTaylor (mat M D + mat M R) (fun _ => mat M D) (K + 1))
      (fun j => by simp [sdcTaylor]) ((taylor D R M J K).take J) (List.replicate M 1) 0
      (by rw [vec_replicate]; simp [sdcTaylor])
      (fun j hj => by
        have hj' : j < J := by simp [ih.1] at hj; exact hj
        rw [zero_add, ← ih.2 j (by omega)]
        simp [List.getD_eq_getElem?_getD, hj']) j (by simp [ih.1]; exact hj)
    rw [zero_add] at this
    exact this

/-- Taylor coefficients `0..J` of the factor of one step, for the weights `w` or the last node. -/
def factor (D R : List (List ℚ)) (M J K : ℕ) : Option (List ℚ) → List ℚ
  | none => (taylor D R M J K).map fun c => c.getD (M - 1) 0
  | some w => 1 :: ((taylor D R M J K).take J).map (dot w)

theorem factor_spec {M : ℕ} {D R : List (List ℚ)} (hD : Shape M D) (hR : Shape M R)
    (J K : ℕ) (w : Option (List ℚ)) (hw : ∀ l, w = some l → l.length = M) (hM : 0 < M) (j : ℕ)
    (hj : j ≤ J) :
    (((factor D R M J K w).getD j 0 : ℚ) : ℝ) =
      sdcFactorTaylor (mat M D + mat M R) (fun _ => mat M D) K (w.map (vec M)) j := by
  obtain ⟨hl, hv⟩ := taylor_spec hD hR J K
  cases w with
  | none =>
    simp only [Option.map_none, sdcFactorTaylor]
    rw [dif_pos hM, ← hv j hj]
    simp [factor, vec, List.getD_eq_getElem?_getD, hl, show j < J + 1 by omega]
  | some w =>
    cases j with
    | zero => simp [factor, sdcFactorTaylor]
    | succ j =>
      simp only [Option.map_some, sdcFactorTaylor, ← hv j (by omega)]
      rw [← dot_cast _ _ _ (hw w rfl).le]
      congr 1
      simp [factor, List.getD_eq_getElem?_getD, hl, show j < J + 1 by omega, show j < J by omega]

/-- The linear order is exactly `p`. -/
def exactOrder (D R : List (List ℚ)) (M K : ℕ) (w : Option (List ℚ)) (p : ℕ) : Bool :=
  let F := factor D R M (p + 1) K w
  (List.range (p + 1)).all (fun j => F.getD j 0 = 1 / (j.factorial : ℚ)) &&
    !decide (F.getD (p + 1) 0 = 1 / ((p + 1).factorial : ℚ))

theorem exactOrder_sound {M : ℕ} {D R : List (List ℚ)} (hD : Shape M D) (hR : Shape M R)
    {K : ℕ} {w : Option (List ℚ)} (hw : ∀ l, w = some l → l.length = M) (hM : 0 < M) {p : ℕ}
    (h : exactOrder D R M K w p = true) :
    SDCLinearOrder (mat M D + mat M R) (fun _ => mat M D) K (w.map (vec M)) p ∧
    sdcFactorTaylor (mat M D + mat M R) (fun _ => mat M D) K (w.map (vec M)) (p + 1) ≠
      1 / (p + 1).factorial := by
  simp only [exactOrder, Bool.and_eq_true, List.all_eq_true, List.mem_range, decide_eq_true_eq,
    Bool.not_eq_true', decide_eq_false_iff_not] at h
  constructor
  · intro j hj
    rw [← factor_spec hD hR (p + 1) K w hw hM j (by omega), h.1 j (by omega)]
    push_cast
    rfl
  · rw [← factor_spec hD hR (p + 1) K w hw hM (p + 1) le_rfl]
    intro h2
    apply h.2
    have h3 : ((((factor D R M (p + 1) K w).getD (p + 1) 0 : ℚ)) : ℝ) =
      ((1 / ((p + 1).factorial : ℚ) : ℚ) : ℝ) := by
      rw [h2]; push_cast; rfl
    exact_mod_cast h3

/-! ## Collocation with rational nodes -/

/-- `p * (X - a)` on coefficient lists. -/
def mulLin (p : List ℚ) (a : ℚ) : List ℚ :=
  List.zipWith (· - ·) (0 :: p) ((p ++ [0]).map (a * ·))

/-- Coefficients of the Lagrange polynomial of node `j`. -/
def basis (x : List ℚ) (j : ℕ) : List ℚ :=
  let xj := x.getD j 0
  (x.zipIdx.filter fun a => a.2 ≠ j).foldl (fun p a => (mulLin p a.1).map (· / (xj - a.1))) [1]

/-- Integral from `0` to `t`. -/
def intTo (p : List ℚ) (t : ℚ) : ℚ := dot p ((List.range p.length).map fun k : ℕ => t ^ (k + 1) / ((k : ℚ) + 1))

def intRow (x : List ℚ) (t : ℚ) : List ℚ := (List.range x.length).map fun j => intTo (basis x j) t

def qmat (x : List ℚ) : List (List ℚ) := x.map (intRow x)

/-- The row integrates the monomials from `0` to `t`. -/
def rowOk (x : List ℚ) (t : ℚ) (r : List ℚ) : Bool :=
  decide (r.length = x.length) && (List.range x.length).all fun k : ℕ =>
    dot r (x.map fun y => y ^ k) = t ^ (k + 1) / ((k : ℚ) + 1)

theorem row_unique {M : ℕ} {y : Fin M → ℝ} (hy : Function.Injective y) {x : List ℚ} (hx : x.length = M)
    (hxy : y = vec M x) {t : ℚ} {r : List ℚ} (h : rowOk x t r = true) {a : Fin M → ℝ}
    (ha : ∀ k < M, ∑ j, a j * y j ^ k = (t:ℝ) ^ (k + 1) / (k + 1)) : a = vec M r := by
  simp only [rowOk, List.all_eq_true, List.mem_range, decide_eq_true_eq,
    Bool.and_eq_true] at h
  obtain ⟨hr, h⟩ := h
  have hmon : ∀ k < M, ∑ j, vec M r j * y j ^ k = (t:ℝ) ^ (k + 1) / (k + 1) := by
    intro k hk
    have h1 := congrArg (fun q : ℚ => (q:ℝ)) (h k (by omega))
    rw [dot_cast _ _ M (by omega)] at h1
    push_cast at h1
    rw [← h1]
    refine Finset.sum_congr rfl fun j _ => ?_
    congr 1
    rw [hxy]
    have hj : (j:ℕ) < x.length := by omega
    simp [vec, List.getD_eq_getElem?_getD, hj]
  refine weights_ext hy fun p hp => ?_
  have e : ∀ b : Fin M → ℝ, ∑ i, b i * p.eval (y i) =
      ∑ k ∈ Finset.range M, p.coeff k * ∑ i, b i * y i ^ k := by
    intro b
    have : ∀ i, p.eval (y i) = ∑ k ∈ Finset.range M, p.coeff k * y i ^ k := fun i =>
      Polynomial.eval_eq_sum_range' (by
        rcases eq_or_ne p 0 with rfl | h0
        · have : 0 < M := by
            by_contra h0
            obtain rfl : M = 0 := by omega
            exact absurd i.2 (by omega)
          simpa using this
        · exact (Polynomial.natDegree_lt_iff_degree_lt h0).mpr hp) _
    simp only [this, Finset.mul_sum]
    rw [Finset.sum_comm]
    exact Finset.sum_congr rfl fun k _ => Finset.sum_congr rfl fun i _ => by ring
  rw [e, e]
  refine Finset.sum_congr rfl fun k hk => ?_
  rw [ha k (Finset.mem_range.mp hk), hmon k (Finset.mem_range.mp hk)]

/-! ## Matrices of the time-stepping generators -/

def build (M : ℕ) (f : ℕ → ℕ → ℚ) : List (List ℚ) :=
  (List.range M).map fun i => (List.range M).map fun j => f i j

theorem build_shape (M : ℕ) (f : ℕ → ℕ → ℚ) : Shape M (build M f) := by
  refine ⟨by simp [build], fun r hr => ?_⟩
  simp only [build, List.mem_map] at hr
  obtain ⟨i, -, rfl⟩ := hr
  simp

theorem mat_build (M : ℕ) (f : ℕ → ℕ → ℚ) :
    mat M (build M f) = Matrix.of fun i j : Fin M => ((f i j : ℚ) : ℝ) := by
  ext i j
  simp [mat, vec, build, List.getD_eq_getElem?_getD]

def delta (x : List ℚ) (i : ℕ) : ℚ := if i = 0 then x.getD 0 0 else x.getD i 0 - x.getD (i - 1) 0

def qBE (x : List ℚ) : ℕ → ℕ → ℚ := fun i j => if j ≤ i then delta x j else 0

def qFE (x : List ℚ) : ℕ → ℕ → ℚ := fun i j => if j < i then delta x (j + 1) else 0

def qTRAP (x : List ℚ) : ℕ → ℕ → ℚ := fun i j => (qBE x i j + qFE x i j) / 2

def qBEPAR (x : List ℚ) : ℕ → ℕ → ℚ := fun i j => if i = j then x.getD i 0 else 0

def qTRAPAR (x : List ℚ) : ℕ → ℕ → ℚ := fun i j => if i = j then x.getD i 0 / 2 else 0

theorem deltas_vec {M : ℕ} {g : TimeStepping M} {x : List ℚ}
    (hg : TimeStepping.new (vec M x) 0 = .ok g) (i : Fin M) : g.deltas i = (delta x i : ℚ) := by
  obtain ⟨-, -, -, h⟩ := g.new_ok hg
  rw [h i, delta]
  split_ifs with hi <;> simp [vec, hi]

theorem schemes_cast {M : ℕ} {g : TimeStepping M} {x : List ℚ}
    (hg : TimeStepping.new (vec M x) 0 = .ok g) :
    g.computeBE = mat M (build M (qBE x)) ∧ g.computeFE = mat M (build M (qFE x)) ∧
    g.computeTRAP = mat M (build M (qTRAP x)) ∧ g.computeBEPAR = mat M (build M (qBEPAR x)) ∧
    g.computeTRAPAR = mat M (build M (qTRAPAR x)) := by
  have hd := deltas_vec hg
  obtain ⟨-, hn, ht, -⟩ := g.new_ok hg
  have hBE : ∀ r c, g.computeBE r c = ((qBE x r c : ℚ) : ℝ) := fun r c => by
    rw [g.computeBE_apply, qBE, hd]
    by_cases h : c ≤ r
    · rw [if_pos h, if_pos (Fin.le_def.mp h)]
    · rw [if_neg h, if_neg (fun h' => h (Fin.le_def.mpr h'))]
      simp
  have hFE : ∀ r c, g.computeFE r c = ((qFE x r c : ℚ) : ℝ) := fun r c => by
    rw [g.computeFE_apply, qFE]
    by_cases h : c < r
    · have h' := Fin.lt_def.mp h
      rw [if_pos h, if_pos h', atPos, dif_pos (by omega), hd]
    · rw [if_neg h, if_neg (fun h' => h (Fin.lt_def.mpr h'))]
      simp
  refine ⟨?_, ?_, ?_, ?_, ?_⟩ <;> rw [mat_build] <;> ext r c
  · exact hBE r c
  · exact hFE r c
  · rw [g.computeTRAP_eq, hBE, hFE]
    simp [qTRAP]
  · simp only [TimeStepping.computeBEPAR, Matrix.of_apply, ht, hn, sub_zero, qBEPAR, Matrix.diagonal_apply,
      Fin.ext_iff]
    split_ifs <;> simp [vec]
  · simp only [TimeStepping.computeTRAPAR, Matrix.of_apply, ht, hn, sub_zero, qTRAPAR,
      Matrix.diagonal_apply, Fin.ext_iff]
    split_ifs <;> simp [vec]

/-- `Q - D`. -/
def residue (M : ℕ) (Q : List (List ℚ)) (f : ℕ → ℕ → ℚ) : List (List ℚ) :=
  build M fun i j => (Q.getD i []).getD j 0 - f i j

theorem residue_add (M : ℕ) (Q : List (List ℚ)) (f : ℕ → ℕ → ℚ) :
    mat M (build M f) + mat M (residue M Q f) = mat M Q := by
  rw [residue, mat_build, mat_build]
  ext i j
  simp [mat, vec]

/-! ## Equidistant nodes -/

/-- Equidistant nodes on `[0, 1]`. -/
def equid (qt : String) (M : ℕ) : List ℚ :=
  (List.range M).map fun i => ((i + equidOffset qt : ℕ) : ℚ) / (equidIntervals qt M : ℕ)

theorem equid_nodes {M : ℕ} {qt : String} (hM : M ≤ 158) (c : Collocation M)
    (hc : Collocation.new M "EQUID" qt 0 1 = .ok c) : c.nodes = vec M (equid qt M) := by
  obtain ⟨x, hM0, h⟩ := collocation_spec hc
  have hv := validSize_of_getNodes h.getNodes
  have hx := getNodes_equid h.hqt hv
  have hN := equidIntervals_pos hv
  set n := equidIntervals qt M with hn
  have hNr : (0:ℝ) < n := by exact_mod_cast hN
  have hval : ∀ k : ℕ, (0:ℝ) + (1 - 0) * ((-1 + (k:ℝ) * (2 / (n:ℝ)) + 1) / 2) = k / n := fun k => by
    field_simp
    ring
  have hn159 : (n:ℝ) ≤ 159 := by
    have : n ≤ M + 1 := by rw [hn]; unfold equidIntervals; split_ifs <;> omega
    exact_mod_cast (by omega : n ≤ 159)
  have key : ∀ i, c.nodes i = (((i:ℕ) + equidOffset qt : ℕ) : ℝ) / n := by
    intro i
    rw [nodes_unsnapped c hc _ hx hM0 ?_ ?_ i, hval]
    · rcases Nat.eq_zero_or_pos (equidOffset qt) with h0 | h0
      · left; rw [h0]; simp
      · right
        rw [hval]
        have : equidOffset qt = 1 := by
          unfold equidOffset at h0 ⊢; split_ifs at h0 ⊢ <;> omega
        rw [this]
        unfold npIsClose
        have : (0:ℝ) - ((0 + 1 : ℕ) : ℝ) / n = -(1 / n) := by push_cast; ring
        rw [this, abs_neg, abs_of_pos (by positivity)]
        have h1 : (1:ℝ) / 159 ≤ 1 / n := one_div_le_one_div_of_le hNr hn159
        have h2 : (((0 + 1 : ℕ) : ℝ) / n) = 1 / n := by push_cast; ring
        rw [h2, abs_of_pos (by positivity)]
        intro hcl
        nlinarith
    · have hlast : M - 1 + equidOffset qt = n ∨ M - 1 + equidOffset qt + 1 = n := by
        have hq := h.hqt
        simp only [QUAD_TYPES, List.mem_cons, List.not_mem_nil, or_false] at hq
        rw [hn]
        unfold equidOffset equidIntervals
        rcases hq with rfl | rfl | rfl | rfl <;> simp <;> omega
      rcases hlast with hl | hl
      · left
        simp only [hl]
        field_simp
        norm_num
      · right
        rw [hval]
        have e : ((M - 1 + equidOffset qt : ℕ) : ℝ) / n = 1 - 1 / n := by
          have : ((M - 1 + equidOffset qt : ℕ) : ℝ) = n - 1 := by
            rw [← hl]; push_cast; ring
          rw [this]; field_simp
        simp only [e]
        unfold npIsClose
        have h1 : (1:ℝ) / 159 ≤ 1 / n := one_div_le_one_div_of_le hNr hn159
        have h2 : (1:ℝ) / n ≤ 1 := by
          rw [div_le_one hNr]; exact_mod_cast hN
        rw [abs_of_nonneg (by linarith : (0:ℝ) ≤ 1 - (1 - 1 / n)),
          abs_of_nonneg (by linarith : (0:ℝ) ≤ 1 - 1 / n)]
        intro hcl
        nlinarith
  funext i
  rw [key i]
  simp [vec, equid, List.getD_eq_getElem?_getD, hn]

end SDCRat

end QMat
