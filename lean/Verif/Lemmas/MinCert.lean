import Verif.Lemmas.StiffSweep
import Verif.Lemmas.Nilpotent

/-!
# Bounds of powers of the stiff limit by integer arithmetic

Matrices are lists of rows of integers, in units of `1 / s`.
-/

namespace QMat

open Matrix

attribute [local instance] Matrix.linftyOpNormedAddCommGroup Matrix.linftyOpNormedRing Matrix.linftyOpNormedSpace
  Matrix.linftyOpNormedAlgebra

namespace MinCert

variable {M : ℕ}

def dot : List ℤ → List ℤ → ℤ
  | a :: x, b :: y => a * b + dot x y
  | _, _ => 0

def cols (M : ℕ) (B : List (List ℤ)) : List (List ℤ) := (List.range M).map fun j => B.map fun r => r.getD j 0

def mul (M : ℕ) (A B : List (List ℤ)) : List (List ℤ) :=
  let C := cols M B
  A.map fun r => C.map fun c => dot r c

def rowSum : List ℤ → ℤ
  | [] => 0
  | a :: x => |a| + rowSum x

def nrm : List (List ℤ) → ℤ
  | [] => 0
  | r :: A => max (rowSum r) (nrm A)

def shape (M : ℕ) (A : List (List ℤ)) : Bool := A.length == M && A.all fun r => r.length == M

/-- Repeated squaring. -/
def powOk (M : ℕ) (s : ℤ) : ℕ → List (List ℤ) → ℤ → Bool
  | 0, B, e => decide (nrm B + e ≤ s)
  | k + 1, B, e =>
    powOk M s k ((mul M B B).map fun r => r.map (· / s)) (e * (2 * nrm B + e) / s + 1 + M)

def mat (M : ℕ) (A : List (List ℤ)) : Matrix (Fin M) (Fin M) ℝ :=
  Matrix.of fun i j => (((A.getD i []).getD j 0 : ℤ) : ℝ)

theorem dot_eq {x y : List ℤ} (hx : x.length = M) (hy : y.length = M) :
    dot x y = ∑ i : Fin M, x.getD i 0 * y.getD i 0 := by
  induction x generalizing y M with
  | nil => subst hx; simp [dot]
  | cons a x ih =>
    cases y with
    | nil => subst hx; simp at hy
    | cons b y =>
      obtain ⟨m, rfl⟩ : ∃ m, M = m + 1 := ⟨x.length, by simpa using hx.symm⟩
      rw [Fin.sum_univ_succ, dot, ih (M := m) (by simpa using hx) (by simpa using hy)]
      simp

theorem rowSum_eq {x : List ℤ} (hx : x.length = M) : rowSum x = ∑ i : Fin M, |x.getD i 0| := by
  induction x generalizing M with
  | nil => subst hx; simp [rowSum]
  | cons a x ih =>
    obtain ⟨m, rfl⟩ : ∃ m, M = m + 1 := ⟨x.length, by simpa using hx.symm⟩
    rw [Fin.sum_univ_succ, rowSum, ih (M := m) (by simpa using hx)]
    simp

theorem rowSum_le_nrm {A : List (List ℤ)} {r : List ℤ} (h : r ∈ A) : rowSum r ≤ nrm A := by
  induction A with
  | nil => simp at h
  | cons a A ih =>
    rw [nrm]
    rcases List.mem_cons.mp h with rfl | h
    · exact le_max_left _ _
    · exact (ih h).trans (le_max_right _ _)

theorem nrm_nonneg (A : List (List ℤ)) : 0 ≤ nrm A := by
  induction A with
  | nil => simp [nrm]
  | cons a A ih => exact ih.trans (le_max_right _ _)

theorem shape_row {A : List (List ℤ)} (h : shape M A = true) (i : Fin M) :
    A.getD i [] ∈ A ∧ (A.getD i []).length = M := by
  simp only [shape, Bool.and_eq_true, beq_iff_eq, List.all_eq_true] at h
  have hi : (i:ℕ) < A.length := by rw [h.1]; exact i.2
  have : A.getD i [] ∈ A := by
    rw [List.getD_eq_getElem?_getD, List.getElem?_eq_getElem hi]
    exact List.getElem_mem hi
  exact ⟨this, h.2 _ this⟩

theorem norm_le_of_rows {A : Matrix (Fin M) (Fin M) ℝ} {b : ℝ} (hb : 0 ≤ b) (h : ∀ i, ∑ j, |A i j| ≤ b) : ‖A‖ ≤ b := by
  rw [linfty_opNorm_def]
  lift b to NNReal using hb
  rw [NNReal.coe_le_coe, Finset.sup_le_iff]
  intro i _
  rw [← NNReal.coe_le_coe]
  simpa using h i

theorem norm_mat_le {A : List (List ℤ)} (h : shape M A = true) : ‖mat M A‖ ≤ nrm A := by
  refine norm_le_of_rows (by exact_mod_cast nrm_nonneg A) fun i => ?_
  obtain ⟨h1, h2⟩ := shape_row h i
  have := rowSum_le_nrm h1
  rw [rowSum_eq h2] at this
  simp only [mat, of_apply]
  exact_mod_cast this

theorem shape_cols {B : List (List ℤ)} (h : shape M B = true) : shape M (cols M B) = true := by
  simp only [shape, Bool.and_eq_true, beq_iff_eq, List.all_eq_true] at h ⊢
  simp [cols, h.1]

theorem shape_mul {A B : List (List ℤ)} (hA : shape M A = true) : shape M (mul M A B) = true := by
  simp only [shape, Bool.and_eq_true, beq_iff_eq, List.all_eq_true] at hA ⊢
  simp [mul, cols, hA.1]

theorem getD_map {α β : Type} {f : α → β} {l : List α} {i : ℕ} (hi : i < l.length) (a : α) (b : β) :
    (l.map f).getD i b = f (l.getD i a) := by
  rw [List.getD_eq_getElem?_getD, List.getD_eq_getElem?_getD, List.getElem?_map, List.getElem?_eq_getElem hi]
  rfl

theorem mat_mul {A B : List (List ℤ)} (hA : shape M A = true) (hB : shape M B = true) :
    mat M (mul M A B) = mat M A * mat M B := by
  ext i j
  have h1 := (shape_row hA i).2
  have hl : A.length = M := by
    simp only [shape, Bool.and_eq_true, beq_iff_eq] at hA
    exact hA.1
  have hlB : B.length = M := by
    simp only [shape, Bool.and_eq_true, beq_iff_eq] at hB
    exact hB.1
  have e : ((mul M A B).getD i []).getD j 0 = dot (A.getD i []) ((cols M B).getD j []) := by
    rw [mul, getD_map (by rw [hl]; exact i.2) [], getD_map (by simp [cols]) []]
  have e2 : (cols M B).getD j [] = B.map fun r => r.getD j 0 := by
    rw [cols, getD_map (by simp) 0]
    simp
  rw [mul_apply]
  simp only [mat, of_apply]
  rw [e, e2, dot_eq h1 (by simp [hlB])]
  push_cast
  refine Finset.sum_congr rfl fun k _ => ?_
  rw [getD_map (by rw [hlB]; exact k.2) []]

theorem shape_scale {A : List (List ℤ)} (s : ℤ) (hA : shape M A = true) :
    shape M (A.map fun r => r.map (· / s)) = true := by
  simp only [shape, Bool.and_eq_true, beq_iff_eq, List.all_eq_true] at hA ⊢
  refine ⟨by simp [hA.1], fun r hr => ?_⟩
  obtain ⟨r', h, rfl⟩ := List.mem_map.mp hr
  simpa using hA.2 r' h

theorem mat_scale {A : List (List ℤ)} {s : ℤ} (hs : 0 < s) (hA : shape M A = true) :
    ‖(s:ℝ)⁻¹ • mat M A - mat M (A.map fun r => r.map (· / s))‖ ≤ M := by
  refine norm_le_of_rows (Nat.cast_nonneg M) fun i => ?_
  have hsR : (0:ℝ) < s := by exact_mod_cast hs
  have hl : A.length = M := by
    simp only [shape, Bool.and_eq_true, beq_iff_eq] at hA
    exact hA.1
  have : ∀ j : Fin M, |((s:ℝ)⁻¹ • mat M A - mat M (A.map fun r => r.map (· / s))) i j| ≤ 1 := by
    intro j
    have e : ((A.map fun r => r.map (· / s)).getD i []).getD j 0 = (A.getD i []).getD j 0 / s := by
      rw [getD_map (by rw [hl]; exact i.2) [], getD_map (by rw [(shape_row hA i).2]; exact j.2) 0]
    simp only [Matrix.sub_apply, Matrix.smul_apply, mat, of_apply, smul_eq_mul]
    rw [e]
    set a := (A.getD i []).getD j 0
    have h1 : s * (a / s) ≤ a := Int.mul_ediv_self_le hs.ne'
    have h2 : a < s * (a / s) + s := Int.lt_mul_ediv_self_add hs
    have h1' : (s:ℝ) * ((a / s : ℤ) : ℝ) ≤ a := by exact_mod_cast h1
    have h2' : (a:ℝ) < s * ((a / s : ℤ) : ℝ) + s := by exact_mod_cast h2
    have e3 : (s:ℝ)⁻¹ * a - ((a / s : ℤ) : ℝ) = (a - s * ((a / s : ℤ) : ℝ)) / s := by field_simp
    rw [e3, abs_le]
    constructor
    · rw [le_div_iff₀ hsR]; linarith
    · rw [div_le_iff₀ hsR]; linarith
  calc _ ≤ ∑ _j : Fin M, (1:ℝ) := Finset.sum_le_sum fun j _ => this j
    _ = M := by simp

/-- What `powOk` proves. -/
theorem powOk_sound {s : ℤ} (hs : 0 < s) (k : ℕ) {B : List (List ℤ)} {e : ℤ} (hB : shape M B = true) (he : 0 ≤ e)
    (h : powOk M s k B e = true) {T : Matrix (Fin M) (Fin M) ℝ} (hT : ‖T - (s:ℝ)⁻¹ • mat M B‖ ≤ e / s) :
    ‖T ^ 2 ^ k‖ ≤ 1 := by
  have hsR : (0:ℝ) < s := by exact_mod_cast hs
  have hnB : ‖(s:ℝ)⁻¹ • mat M B‖ ≤ nrm B / s := by
    rw [norm_smul, norm_inv, Real.norm_of_nonneg hsR.le, div_eq_inv_mul]
    exact mul_le_mul_of_nonneg_left (norm_mat_le hB) (inv_nonneg.mpr hsR.le)
  induction k generalizing B e T with
  | zero =>
    simp only [powOk, decide_eq_true_eq] at h
    have h' : (nrm B : ℝ) + e ≤ s := by exact_mod_cast h
    rw [pow_zero, pow_one]
    calc ‖T‖ = ‖(T - (s:ℝ)⁻¹ • mat M B) + (s:ℝ)⁻¹ • mat M B‖ := by rw [sub_add_cancel]
      _ ≤ e / s + nrm B / s := (norm_add_le _ _).trans (add_le_add hT hnB)
      _ = (nrm B + e) / s := by ring
      _ ≤ 1 := (div_le_one hsR).mpr h'
  | succ k ih =>
    rw [powOk] at h
    set n := nrm B with hn
    have hn0 : 0 ≤ n := nrm_nonneg B
    have he' : 0 ≤ e * (2 * n + e) / s + 1 + M := by
      have : 0 ≤ e * (2 * n + e) / s := Int.ediv_nonneg (by positivity) hs.le
      positivity
    have hB2 : shape M ((mul M B B).map fun r => r.map (· / s)) = true := shape_scale s (shape_mul hB)
    have key := ih hB2 he' h (T := T ^ 2) ?_ ?_
    · rwa [← pow_mul, ← pow_succ'] at key
    · set X := (s:ℝ)⁻¹ • mat M B with hX
      have h1 : T ^ 2 - X ^ 2 = (T - X) * T + X * (T - X) := by noncomm_ring
      have hTn : ‖T‖ ≤ e / s + n / s := by
        calc ‖T‖ = ‖(T - X) + X‖ := by rw [sub_add_cancel]
          _ ≤ _ := (norm_add_le _ _).trans (add_le_add hT hnB)
      have hes : (0:ℝ) ≤ e / s := div_nonneg (by exact_mod_cast he) hsR.le
      have h2 : ‖T ^ 2 - X ^ 2‖ ≤ e / s * (e / s + n / s) + n / s * (e / s) := by
        rw [h1]
        refine (norm_add_le _ _).trans (add_le_add ?_ ?_)
        · exact (norm_mul_le _ _).trans (mul_le_mul hT hTn (norm_nonneg _) hes)
        · exact (norm_mul_le _ _).trans (mul_le_mul hnB hT (norm_nonneg _) ((norm_nonneg _).trans hnB))
      have h3 : X ^ 2 = (s:ℝ)⁻¹ • ((s:ℝ)⁻¹ • mat M (mul M B B)) := by
        rw [mat_mul hB hB, hX, pow_two, Matrix.smul_mul, Matrix.mul_smul]
      have h4 : ‖X ^ 2 - (s:ℝ)⁻¹ • mat M ((mul M B B).map fun r => r.map (· / s))‖ ≤ M / s := by
        rw [h3, ← smul_sub, norm_smul, norm_inv, Real.norm_of_nonneg hsR.le, div_eq_inv_mul]
        exact mul_le_mul_of_nonneg_left (mat_scale hs (shape_mul hB)) (inv_nonneg.mpr hsR.le)
      have h5 : e * (2 * n + e) < s * (e * (2 * n + e) / s) + s := Int.lt_mul_ediv_self_add hs
      have h5' : (e:ℝ) * (2 * n + e) < s * ((e * (2 * n + e) / s : ℤ) : ℝ) + s := by exact_mod_cast h5
      have h6 : (e:ℝ) / s * (e / s + n / s) + n / s * (e / s) ≤ (((e * (2 * n + e) / s : ℤ) : ℝ) + 1) / s := by
        have : (e:ℝ) / s * (e / s + n / s) + n / s * (e / s) = (e * (2 * n + e) / s) / s := by field_simp; ring
        rw [this]
        refine div_le_div_of_nonneg_right ?_ hsR.le
        rw [div_le_iff₀ hsR]
        nlinarith
      calc _ = ‖(T ^ 2 - X ^ 2) + (X ^ 2 - (s:ℝ)⁻¹ • mat M ((mul M B B).map fun r => r.map (· / s)))‖ := by
            rw [sub_add_sub_cancel]
        _ ≤ _ := (norm_add_le _ _).trans (add_le_add (h2.trans h6) h4)
        _ = _ := by push_cast; ring
    · rw [norm_smul, norm_inv, Real.norm_of_nonneg hsR.le, div_eq_inv_mul]
      exact mul_le_mul_of_nonneg_left (norm_mat_le hB2) (inv_nonneg.mpr hsR.le)

/-- Powers of a node, from `v` on. -/
def pows (s k : ℤ) : ℕ → ℤ → List ℤ
  | 0, _ => []
  | n + 1, v => v :: pows s k n (v * k / s)

/-- Row of `S V / r` for the limit `S` and Vandermonde's matrix `V`: `(x ^ j - x ^ (j + 1) / ((j + 1) d)) / r`. -/
def zRow (d r : ℚ) : ℕ → List ℤ → List ℚ
  | j, v :: v' :: l => (if d = 0 then 0 else (v - v' / ((j + 1) * d)) / r) :: zRow d r (j + 1) (v' :: l)
  | _, _ => []

def resRow (s : ℤ) : List ℚ → List ℤ → ℚ
  | z :: x, a :: y => |z - a / s| + resRow s x y
  | _, _ => 0

def sub1 (s : ℤ) (i : ℕ) : List ℤ → ℕ → ℤ
  | [], _ => 0
  | a :: l, j => |(if i = j then s * s else 0) - a| + sub1 s i l (j + 1)

/-- `Y` is close to the inverse of Vandermonde's matrix, `X` to the stiff limit divided by `r`. -/
def initOk (M : ℕ) (s w : ℤ) (ks : List ℤ) (ds : List ℚ) (r g : ℚ) (X Y : List (List ℤ)) (e : ℤ) (R : ℚ) : Bool :=
  let P := ks.map fun k => pows s k (M + 1) s
  let V := P.map (·.take M)
  let XV := mul M X V
  let YV := mul M Y V
  (ks.length == M) && (ds.length == M) && (ks.all fun k => decide (0 ≤ k ∧ k ≤ s)) &&
  ((List.range M).all fun i =>
    decide (2 * (sub1 s i (YV.getD i []) 0 + nrm Y * (M * M * (w + 1))) ≤ s * s) &&
    decide (ds.getD i 0 = 0 ∨ 0 < ds.getD i 0 ∧ 1 ≤ g * ds.getD i 0) &&
    decide (resRow s (zRow (ds.getD i 0) r 0 (P.getD i [])) (XV.getD i []) ≤ R)) &&
  decide (2 * nrm Y / s * (M * (w + 1) * (M + g) / r + R + nrm X / s * (M * M * (w + 1))) ≤ (e : ℚ))

theorem pows_length (s k : ℤ) (n : ℕ) (v : ℤ) : (pows s k n v).length = n := by
  induction n generalizing v with
  | zero => rfl
  | succ n ih => simp [pows, ih]

theorem pows_close {s k w : ℤ} (hs : 0 < s) (hk0 : 0 ≤ k) (hk : k ≤ s) (hw : 0 ≤ w) {t : ℝ} (ht0 : 0 ≤ t) (ht : t ≤ 1)
    (h : |t * s - k| ≤ w) (n : ℕ) {v : ℤ} {m : ℕ} (hv : |t ^ m * s - v| ≤ m * (w + 1)) {j : ℕ} (hj : j < n) :
    |t ^ (m + j) * s - ((pows s k n v).getD j 0 : ℤ)| ≤ (m + j : ℕ) * (w + 1) := by
  induction n generalizing v m j with
  | zero => simp at hj
  | succ n ih =>
    cases j with
    | zero => simpa [pows] using hv
    | succ j =>
      have hsR : (0:ℝ) < s := by exact_mod_cast hs
      have hkR : (k:ℝ) ≤ s := by exact_mod_cast hk
      have hk0R : (0:ℝ) ≤ k := by exact_mod_cast hk0
      have hwR : (0:ℝ) ≤ w := by exact_mod_cast hw
      have h1 : s * (v * k / s) ≤ v * k := Int.mul_ediv_self_le hs.ne'
      have h2 : v * k < s * (v * k / s) + s := Int.lt_mul_ediv_self_add hs
      have h1' : (s:ℝ) * ((v * k / s : ℤ) : ℝ) ≤ v * k := by exact_mod_cast h1
      have h2' : (v:ℝ) * k < s * ((v * k / s : ℤ) : ℝ) + s := by exact_mod_cast h2
      have hq : |(v:ℝ) * k / s - ((v * k / s : ℤ) : ℝ)| ≤ 1 := by
        have e3 : (v:ℝ) * k / s - ((v * k / s : ℤ) : ℝ) = (v * k - s * ((v * k / s : ℤ) : ℝ)) / s := by field_simp
        rw [e3, abs_le]
        constructor
        · rw [le_div_iff₀ hsR]; linarith
        · rw [div_le_iff₀ hsR]; linarith
      have hnext : |t ^ (m + 1) * s - ((v * k / s : ℤ) : ℝ)| ≤ (m + 1 : ℕ) * (w + 1) := by
        have e : t ^ (m + 1) * s - ((v * k / s : ℤ) : ℝ) =
            t ^ m * (t * s - k) + (t ^ m * s - v) * (k / s) + (v * k / s - ((v * k / s : ℤ) : ℝ)) := by
          field_simp
          ring
        rw [e]
        have b1 : |t ^ m * (t * s - k)| ≤ w := by
          rw [abs_mul, abs_of_nonneg (pow_nonneg ht0 m)]
          calc _ ≤ 1 * |t * s - k| := mul_le_mul_of_nonneg_right (pow_le_one₀ ht0 ht) (abs_nonneg _)
            _ ≤ w := by rw [one_mul]; exact h
        have b2 : |(t ^ m * s - v) * (k / s)| ≤ m * (w + 1) := by
          rw [abs_mul, abs_of_nonneg (div_nonneg hk0R hsR.le)]
          calc _ ≤ |t ^ m * s - v| * 1 := mul_le_mul_of_nonneg_left ((div_le_one hsR).mpr hkR) (abs_nonneg _)
            _ ≤ _ := by rw [mul_one]; exact hv
        refine (abs_add_le _ _).trans ((add_le_add ((abs_add_le _ _).trans (add_le_add b1 b2)) hq).trans
          (le_of_eq ?_))
        push_cast
        ring
      have := ih hnext (Nat.lt_of_succ_lt_succ hj)
      rw [show m + (j + 1) = m + 1 + j by ring]
      simpa [pows] using this

theorem zRow_getD {d r : ℚ} {l : List ℤ} {j0 j : ℕ} (hj : j + 1 < l.length) :
    (zRow d r j0 l).getD j 0 = if d = 0 then 0 else
      (((l.getD j 0 : ℤ) : ℚ) - ((l.getD (j + 1) 0 : ℤ) : ℚ) / (((j0 + j : ℕ) + 1) * d)) / r := by
  induction l generalizing j0 j with
  | nil => simp at hj
  | cons v l ih =>
    cases l with
    | nil => simp at hj
    | cons v' l =>
      cases j with
      | zero => simp [zRow]
      | succ j =>
        have := ih (j0 := j0 + 1) (j := j) (by simpa using hj)
        rw [zRow]
        simp only [List.getD_cons_succ] at this ⊢
        rw [this]
        push_cast
        ring_nf

theorem zRow_length (d r : ℚ) (j0 : ℕ) (l : List ℤ) : (zRow d r j0 l).length = l.length - 1 := by
  induction l generalizing j0 with
  | nil => rfl
  | cons v l ih =>
    cases l with
    | nil => rfl
    | cons v' l => rw [zRow, List.length_cons, ih]; simp

theorem resRow_eq {s : ℤ} {x : List ℚ} {y : List ℤ} (hx : x.length = M) (hy : y.length = M) :
    resRow s x y = ∑ j : Fin M, |x.getD j 0 - ((y.getD j 0 : ℤ) : ℚ) / s| := by
  induction x generalizing y M with
  | nil => subst hx; simp [resRow]
  | cons a x ih =>
    cases y with
    | nil => subst hx; simp at hy
    | cons b y =>
      obtain ⟨m, rfl⟩ : ∃ m, M = m + 1 := ⟨x.length, by simpa using hx.symm⟩
      rw [Fin.sum_univ_succ, resRow, ih (M := m) (by simpa using hx) (by simpa using hy)]
      simp

theorem sub1_eq {s : ℤ} {i : ℕ} {l : List ℤ} (hl : l.length = M) (j0 : ℕ) :
    sub1 s i l j0 = ∑ j : Fin M, |(if i = j0 + (j:ℕ) then s * s else 0) - l.getD j 0| := by
  induction l generalizing M j0 with
  | nil => subst hl; simp [sub1]
  | cons a l ih =>
    obtain ⟨m, rfl⟩ : ∃ m, M = m + 1 := ⟨l.length, by simpa using hl.symm⟩
    rw [Fin.sum_univ_succ, sub1, ih (M := m) (by simpa using hl)]
    simp [add_assoc, add_comm 1]

/-- The check of one table entry. -/
def certOk (M : ℕ) (s w : ℤ) (ks : List ℤ) (ds : List ℚ) (r g : ℚ) (X Y : List (List ℤ)) (e : ℤ) (R : ℚ) (K : ℕ) :
    Bool :=
  shape M X && shape M Y && initOk M s w ks ds r g X Y e R && powOk M s K X e

/-- `X` is close to the stiff limit divided by `r`. -/
theorem initOk_sound {s w : ℤ} (hs : 0 < s) (hw : 0 ≤ w) {ks : List ℤ} {ds : List ℚ} {r g : ℚ} (hr : 0 < r)
    (hg : 0 ≤ g) {X Y : List (List ℤ)} {e : ℤ} {R : ℚ} (he : 0 ≤ e) (hX : shape M X = true) (hY : shape M Y = true)
    (h : initOk M s w ks ds r g X Y e R = true)
    {x : Fin M → ℝ} (hx : Function.Injective x) (hx0 : ∀ i, 0 ≤ x i) (hx1 : ∀ i, x i ≤ 1)
    (hk : ∀ i, |x i * s - (ks.getD i 0 : ℤ)| ≤ w) {Q : Matrix (Fin M) (Fin M) ℝ} (hQ : IntegratesMonomials x Q) :
    ‖(r:ℝ)⁻¹ • stiffLimit (fun i => ((ds.getD i 0 : ℚ) : ℝ)) Q - (s:ℝ)⁻¹ • mat M X‖ ≤ e / s := by
  simp only [initOk, Bool.and_eq_true, beq_iff_eq, decide_eq_true_eq, List.all_eq_true, List.mem_range] at h
  obtain ⟨⟨⟨⟨hkl, -⟩, hks⟩, hrows⟩, hfin⟩ := h
  set P := ks.map fun k => pows s k (M + 1) s with hP
  set V := P.map (·.take M) with hV
  have hsR : (0:ℝ) < s := by exact_mod_cast hs
  have hrR : (0:ℝ) < r := by exact_mod_cast hr
  have hwR : (0:ℝ) ≤ w := by exact_mod_cast hw
  have hPl : P.length = M := by simp [hP, hkl]
  have hPi : ∀ i : Fin M, P.getD i [] = pows s (ks.getD i 0) (M + 1) s := fun i => by
    rw [hP, getD_map (by rw [hkl]; exact i.2) 0]
  have hVs : shape M V = true := by
    simp only [shape, Bool.and_eq_true, beq_iff_eq, List.all_eq_true]
    refine ⟨by simp [hV, hPl], fun r hr => ?_⟩
    obtain ⟨r', h', rfl⟩ := List.mem_map.mp hr
    obtain ⟨k, -, rfl⟩ := List.mem_map.mp h'
    simp [pows_length]
  have hVi : ∀ i j : Fin M, (V.getD i []).getD j 0 = (P.getD i []).getD j 0 := fun i j => by
    rw [hV, getD_map (by rw [hPl]; exact i.2) []]
    simp [List.getD_eq_getElem?_getD, List.getElem?_take, j.2]
  have hpw : ∀ (i : Fin M) (j : ℕ), j ≤ M →
      |x i ^ j * s - ((P.getD i []).getD j 0 : ℤ)| ≤ j * (w + 1) := by
    intro i j hj
    have hmem : ks.getD i 0 ∈ ks := by
      have hi : (i:ℕ) < ks.length := by rw [hkl]; exact i.2
      rw [List.getD_eq_getElem?_getD, List.getElem?_eq_getElem hi]
      exact List.getElem_mem hi
    have := pows_close hs (hks _ hmem).1 (hks _ hmem).2 hw (hx0 i) (hx1 i) (hk i) (M + 1) (v := s) (m := 0)
      (by simp) (j := j) (by omega)
    rw [hPi]
    simpa using this
  set W : Matrix (Fin M) (Fin M) ℝ := vandermonde x with hW
  have hWdet : IsUnit W.det := isUnit_iff_ne_zero.mpr (det_vandermonde_ne_zero_iff.mpr hx)
  set V' := (s:ℝ)⁻¹ • mat M V with hV'
  set X' := (s:ℝ)⁻¹ • mat M X with hX'
  set Y' := (s:ℝ)⁻¹ • mat M Y with hY'
  have hsc : ∀ {A : List (List ℤ)}, shape M A = true → ‖(s:ℝ)⁻¹ • mat M A‖ ≤ nrm A / s := fun hA => by
    rw [norm_smul, norm_inv, Real.norm_of_nonneg hsR.le, div_eq_inv_mul]
    exact mul_le_mul_of_nonneg_left (norm_mat_le hA) (inv_nonneg.mpr hsR.le)
  have hnX := hsc hX
  have hnY := hsc hY
  -- Vandermonde's matrix
  have hWV : ‖W - V'‖ ≤ M * M * (w + 1) / s := by
    refine norm_le_of_rows (by positivity) fun i => ?_
    have : ∀ j : Fin M, |(W - V') i j| ≤ M * (w + 1) / s := by
      intro j
      have h1 := hpw i j j.2.le
      have e1 : (W - V') i j = (x i ^ (j:ℕ) * s - ((P.getD i []).getD j 0 : ℤ)) / s := by
        simp only [hW, hV', Matrix.sub_apply, Matrix.smul_apply, mat, of_apply, vandermonde_apply, smul_eq_mul]
        rw [hVi]
        field_simp
      rw [e1, abs_div, abs_of_pos hsR]
      refine div_le_div_of_nonneg_right (h1.trans ?_) hsR.le
      have : ((j:ℕ):ℝ) ≤ M := by exact_mod_cast j.2.le
      exact mul_le_mul_of_nonneg_right this (by linarith)
    calc _ ≤ ∑ _j : Fin M, (M * (w + 1) / s : ℝ) := Finset.sum_le_sum fun j _ => this j
      _ = _ := by simp; ring
  -- the inverse
  have hinv : ‖W⁻¹‖ ≤ 2 * (nrm Y / s) := by
    have h1 : ‖1 - Y' * V'‖ ≤ (1 / 2 - nrm Y * (M * M * (w + 1)) / (s * s) : ℝ) := by
      have hnn : (0:ℝ) ≤ 1 / 2 - nrm Y * (M * M * (w + 1)) / (s * s) ∨ M = 0 := by
        rcases Nat.eq_zero_or_pos M with h0 | h0
        · exact Or.inr h0
        · left
          have h2 := (hrows 0 h0).1.1
          have h3 : (0:ℤ) ≤ sub1 s 0 ((mul M Y V).getD 0 []) 0 := by
            have := (shape_row (shape_mul (B := V) hY) ⟨0, h0⟩).2
            rw [sub1_eq this]
            exact Finset.sum_nonneg fun _ _ => abs_nonneg _
          have h4 : 2 * (nrm Y * (M * M * (w + 1))) ≤ s * s := by linarith
          have h4' : (2:ℝ) * (nrm Y * (M * M * (w + 1))) ≤ s * s := by exact_mod_cast h4
          rw [sub_nonneg, div_le_div_iff₀ (by positivity) two_pos]
          linarith
      rcases hnn with hnn | rfl
      swap
      · simp [linfty_opNorm_def]
      refine norm_le_of_rows hnn fun i => ?_
      have h2 := (hrows i i.2).1.1
      have hl := (shape_row (shape_mul (B := V) hY) i).2
      rw [sub1_eq hl] at h2
      have e1 : ∀ j : Fin M, (1 - Y' * V') i j =
          (((if (i:ℕ) = 0 + (j:ℕ) then s * s else 0) - ((mul M Y V).getD i []).getD j 0 : ℤ) : ℝ) / (s * s) := by
        intro j
        have : (Y' * V') i j = (((mul M Y V).getD i []).getD j 0 : ℤ) / (s * s) := by
          have h3 := congrFun (congrFun (mat_mul hY hVs) i) j
          rw [hY', hV', Matrix.smul_mul, Matrix.mul_smul, Matrix.smul_apply, Matrix.smul_apply, ← h3]
          simp only [mat, of_apply, smul_eq_mul]
          field_simp
        rw [Matrix.sub_apply, this, Matrix.one_apply]
        push_cast
        by_cases hij : i = j
        · subst hij
          simp only [zero_add, if_true]
          field_simp
        · have : (i:ℕ) ≠ j := fun h => hij (Fin.ext h)
          simp only [zero_add, if_neg hij, if_neg this]
          ring
      have h2' : (2:ℝ) * ((∑ j : Fin M, |(((if (i:ℕ) = 0 + (j:ℕ) then s * s else 0) -
          ((mul M Y V).getD i []).getD j 0 : ℤ) : ℝ)|) + nrm Y * (M * M * (w + 1))) ≤ s * s := by exact_mod_cast h2
      simp only [e1, abs_div, abs_of_pos (mul_pos hsR hsR)]
      rw [← Finset.sum_div, div_le_iff₀ (mul_pos hsR hsR), sub_mul, div_mul_cancel₀ _ (mul_pos hsR hsR).ne']
      linarith
    have h2 : ‖1 - Y' * W‖ ≤ 1 / 2 := by
      have e1 : 1 - Y' * W = (1 - Y' * V') - Y' * (W - V') := by noncomm_ring
      rw [e1]
      refine (norm_sub_le _ _).trans ?_
      have h3 : ‖Y' * (W - V')‖ ≤ nrm Y / s * (M * M * (w + 1) / s) :=
        (norm_mul_le _ _).trans (mul_le_mul hnY hWV (norm_nonneg _) ((norm_nonneg _).trans hnY))
      have h4 : (nrm Y:ℝ) / s * (M * M * (w + 1) / s) = nrm Y * (M * M * (w + 1)) / (s * s) := by
        field_simp
      linarith
    have e2 : W⁻¹ = Y' + (1 - Y' * W) * W⁻¹ := by
      rw [sub_mul, one_mul, Matrix.mul_assoc, mul_nonsing_inv _ hWdet, mul_one]
      abel
    have h3 : ‖W⁻¹‖ ≤ nrm Y / s + 1 / 2 * ‖W⁻¹‖ := by
      conv_lhs => rw [e2]
      refine (norm_add_le _ _).trans (add_le_add hnY ?_)
      exact (norm_mul_le _ _).trans (mul_le_mul_of_nonneg_right h2 (norm_nonneg _))
    linarith
  -- the limit
  set S := stiffLimit (fun i => ((ds.getD i 0 : ℚ) : ℝ)) Q with hS
  have hSW : ∀ i j : Fin M, (S * W) i j = if ((ds.getD i 0 : ℚ) : ℝ) = 0 then 0 else
      x i ^ (j:ℕ) - x i ^ ((j:ℕ) + 1) / (((j:ℕ) + 1) * ((ds.getD i 0 : ℚ) : ℝ)) := by
    intro i j
    rw [mul_apply]
    simp only [hS, stiffLimit, hW, of_apply, vandermonde_apply]
    split_ifs with h0
    · simp
    · have h1 := hQ j j.2 i
      simp only [mulVec, dotProduct] at h1
      change ∑ k, ((diagonal (fun i : Fin M => ((ds.getD i 0 : ℚ) : ℝ)) : Matrix _ _ ℝ) i k - Q i k) /
        ((ds.getD i 0 : ℚ) : ℝ) * x k ^ (j:ℕ) = _
      have h2 : ∀ k : Fin M, ((diagonal (fun i : Fin M => ((ds.getD i 0 : ℚ) : ℝ)) : Matrix _ _ ℝ) i k - Q i k) / ((ds.getD i 0 : ℚ) : ℝ) *
          x k ^ (j:ℕ) = ((diagonal (fun i : Fin M => ((ds.getD i 0 : ℚ) : ℝ)) : Matrix _ _ ℝ) i k * x k ^ (j:ℕ) -
            Q i k * x k ^ (j:ℕ)) / ((ds.getD i 0 : ℚ) : ℝ) := fun k => by ring
      simp only [h2]
      rw [← Finset.sum_div, Finset.sum_sub_distrib, h1]
      simp only [diagonal_apply, ite_mul, zero_mul, Finset.sum_ite_eq, Finset.mem_univ, if_true]
      field_simp
  set T := (r:ℝ)⁻¹ • S with hT
  have hres : ‖T * W - X' * V'‖ ≤ M * ((w + 1) * (M + g) / r) / s + R / s ∨ M = 0 := by
    rcases Nat.eq_zero_or_pos M with h0 | h0
    · exact Or.inr h0
    left
    have hgR : (0:ℝ) ≤ g := by exact_mod_cast hg
    have hXVl := fun i => (shape_row (shape_mul (B := V) hX) i).2
    have hrow : ∀ i : Fin M, ∑ j : Fin M, |((((zRow (ds.getD i 0) r 0 (P.getD i [])).getD j 0 : ℚ) : ℝ) -
        (((mul M X V).getD i []).getD j 0 : ℤ) / s)| ≤ R := by
      intro i
      have h1 := (hrows i i.2).2
      rw [resRow_eq (M := M) (by rw [zRow_length, hPi, pows_length]; omega) (hXVl i)] at h1
      exact_mod_cast h1
    have hR0 : (0:ℝ) ≤ R := (Finset.sum_nonneg fun _ _ => abs_nonneg _).trans (hrow ⟨0, h0⟩)
    refine norm_le_of_rows (by positivity) fun i => ?_
    have hj : ∀ j : Fin M, |(T * W - X' * V') i j| ≤ (w + 1) * (M + g) / r / s +
        |((((zRow (ds.getD i 0) r 0 (P.getD i [])).getD j 0 : ℚ) : ℝ) -
          (((mul M X V).getD i []).getD j 0 : ℤ) / s)| / s := by
      intro j
      have e1 : (X' * V') i j = (((mul M X V).getD i []).getD j 0 : ℤ) / s / s := by
        have h3 := congrFun (congrFun (mat_mul hX hVs) i) j
        rw [hX', hV', Matrix.smul_mul, Matrix.mul_smul, Matrix.smul_apply, Matrix.smul_apply, ← h3]
        simp only [mat, of_apply, smul_eq_mul]
        field_simp
      have e2 : (T * W) i j = (r:ℝ)⁻¹ * (S * W) i j := by
        rw [hT, Matrix.smul_mul, Matrix.smul_apply, smul_eq_mul]
      have hz : |(T * W) i j - ((((zRow (ds.getD i 0) r 0 (P.getD i [])).getD j 0 : ℚ) : ℝ)) / s| ≤
          (w + 1) * (M + g) / r / s := by
        rw [e2, hSW, zRow_getD (by rw [hPi, pows_length]; have := j.2; omega)]
        rcases (hrows i i.2).1.2 with h0 | ⟨hd, hgd⟩
        · rw [h0]
          simp only [Rat.cast_zero, if_true, mul_zero, zero_div, sub_self, abs_zero]
          positivity
        · have hdR : (0:ℝ) < (ds.getD i 0 : ℚ) := by exact_mod_cast hd
          have hgdR : (1:ℝ) ≤ g * (ds.getD i 0 : ℚ) := by exact_mod_cast hgd
          rw [if_neg hdR.ne', if_neg hd.ne']
          have b1 := hpw i j j.2.le
          have b2 := hpw i (j + 1) j.2
          push_cast at b2 ⊢
          set a := (((P.getD i []).getD j 0 : ℤ) : ℝ)
          set b := (((P.getD i []).getD ((j:ℕ) + 1) 0 : ℤ) : ℝ)
          set d := ((ds.getD i 0 : ℚ) : ℝ)
          have hj1 : (0:ℝ) < (j:ℕ) + 1 := by positivity
          have e3 : (r:ℝ)⁻¹ * (x i ^ (j:ℕ) - x i ^ ((j:ℕ) + 1) / (((j:ℕ) + 1) * d)) -
              (a - b / ((0 + (j:ℕ) + 1) * d)) / r / s =
              ((x i ^ (j:ℕ) * s - a) - (x i ^ ((j:ℕ) + 1) * s - b) / (((j:ℕ) + 1) * d)) / r / s := by
            rw [zero_add]
            field_simp
            ring
          rw [e3, abs_div, abs_div, abs_of_pos hsR, abs_of_pos hrR]
          refine div_le_div_of_nonneg_right (div_le_div_of_nonneg_right ?_ hrR.le) hsR.le
          refine (abs_sub _ _).trans ?_
          have b3 : |(x i ^ ((j:ℕ) + 1) * s - b) / (((j:ℕ) + 1) * d)| ≤ (w + 1) * g := by
            rw [abs_div, abs_of_pos (mul_pos hj1 hdR), div_le_iff₀ (mul_pos hj1 hdR)]
            refine b2.trans ?_
            have : (((j:ℕ):ℝ) + 1) * (w + 1) * 1 ≤ (((j:ℕ):ℝ) + 1) * (w + 1) * (g * d) :=
              mul_le_mul_of_nonneg_left hgdR (by positivity)
            linarith
          have b4 : ((j:ℕ):ℝ) * (w + 1) ≤ M * (w + 1) := by
            have : ((j:ℕ):ℝ) ≤ M := by exact_mod_cast j.2.le
            exact mul_le_mul_of_nonneg_right this (by linarith)
          linarith
      rw [Matrix.sub_apply, e1]
      have e4 : (T * W) i j - (((mul M X V).getD i []).getD j 0 : ℤ) / s / s =
          ((T * W) i j - ((((zRow (ds.getD i 0) r 0 (P.getD i [])).getD j 0 : ℚ) : ℝ)) / s) +
          ((((zRow (ds.getD i 0) r 0 (P.getD i [])).getD j 0 : ℚ) : ℝ) -
            (((mul M X V).getD i []).getD j 0 : ℤ) / s) / s := by ring
      rw [e4]
      refine (abs_add_le _ _).trans (add_le_add hz ?_)
      rw [abs_div, abs_of_pos hsR]
    calc _ ≤ ∑ j : Fin M, ((w + 1) * (M + g) / r / s + |((((zRow (ds.getD i 0) r 0 (P.getD i [])).getD j 0 : ℚ) : ℝ) -
          (((mul M X V).getD i []).getD j 0 : ℤ) / s)| / s) := Finset.sum_le_sum fun j _ => hj j
      _ = M * ((w + 1) * (M + g) / r) / s + (∑ j : Fin M, |((((zRow (ds.getD i 0) r 0 (P.getD i [])).getD j 0 : ℚ) : ℝ) -
          (((mul M X V).getD i []).getD j 0 : ℤ) / s)|) / s := by
        rw [Finset.sum_add_distrib, Finset.sum_const, Finset.card_univ, Fintype.card_fin, nsmul_eq_mul, Finset.sum_div]
        ring
      _ ≤ _ := by
        have := div_le_div_of_nonneg_right (hrow i) hsR.le
        linarith
  rcases hres with hres | rfl
  swap
  · have : ‖T - X'‖ = 0 := by simp [linfty_opNorm_def]
    rw [this]
    have : (0:ℝ) ≤ e := by exact_mod_cast he
    positivity
  have e1 : T - X' = (T * W - X' * V' - X' * (W - V')) * W⁻¹ := by
    have : T * W - X' * V' - X' * (W - V') = (T - X') * W := by noncomm_ring
    rw [this, Matrix.mul_assoc, mul_nonsing_inv _ hWdet, mul_one]
  have h1 : ‖T * W - X' * V' - X' * (W - V')‖ ≤
      M * ((w + 1) * (M + g) / r) / s + R / s + nrm X / s * (M * M * (w + 1) / s) := by
    refine (norm_sub_le _ _).trans (add_le_add hres ?_)
    exact (norm_mul_le _ _).trans (mul_le_mul hnX hWV (norm_nonneg _) ((norm_nonneg _).trans hnX))
  rw [e1]
  refine (norm_mul_le _ _).trans ((mul_le_mul h1 hinv (norm_nonneg _) ((norm_nonneg _).trans h1)).trans ?_)
  have hfin' : (2:ℝ) * nrm Y / s * (M * (w + 1) * (M + g) / r + R + nrm X / s * (M * M * (w + 1))) ≤ e := by
    exact_mod_cast hfin
  rw [le_div_iff₀ hsR]
  refine le_trans (le_of_eq ?_) hfin'
  field_simp

theorem certOk_sound {s w : ℤ} (hs : 0 < s) (hw : 0 ≤ w) {ks : List ℤ} {ds : List ℚ} {r g : ℚ} (hr : 0 < r)
    (hg : 0 ≤ g) {X Y : List (List ℤ)} {e : ℤ} {R : ℚ} {K : ℕ} (he : 0 ≤ e)
    (h : certOk M s w ks ds r g X Y e R K = true)
    {x : Fin M → ℝ} (hx : Function.Injective x) (hx0 : ∀ i, 0 ≤ x i) (hx1 : ∀ i, x i ≤ 1)
    (hk : ∀ i, |x i * s - (ks.getD i 0 : ℤ)| ≤ w) {Q : Matrix (Fin M) (Fin M) ℝ} (hQ : IntegratesMonomials x Q) :
    ‖(r:ℝ)⁻¹ • stiffLimit (fun i => ((ds.getD i 0 : ℚ) : ℝ)) Q - (s:ℝ)⁻¹ • mat M X‖ ≤ e / s ∧
    ‖stiffLimit (fun i => ((ds.getD i 0 : ℚ) : ℝ)) Q ^ 2 ^ K‖ ≤ (r : ℝ) ^ 2 ^ K := by
  simp only [certOk, Bool.and_eq_true] at h
  obtain ⟨⟨⟨hX, hY⟩, hi⟩, hpow⟩ := h
  have hTX := initOk_sound hs hw hr hg he hX hY hi hx hx0 hx1 hk hQ
  refine ⟨hTX, ?_⟩
  have hrR : (0:ℝ) < r := by exact_mod_cast hr
  have key := powOk_sound hs K hX he hpow hTX
  rw [smul_pow, norm_smul, norm_pow, norm_inv, Real.norm_of_nonneg hrR.le, inv_pow,
    inv_mul_le_iff₀ (by positivity), mul_one] at key
  exact key

/-! ## Candidates -/

def polyMul (s k : ℤ) : List ℤ → ℤ → List ℤ
  | [], c => [c]
  | a :: l, c => (c - a * k / s) :: polyMul s k l a

/-- Coefficients of the product of `x - k` over the nodes other than the one given. -/
def others (s : ℤ) : List ℤ → ℤ → List ℤ
  | [], _ => [s]
  | k :: l, k0 => if k = k0 then others s l k0 else polyMul s k (others s l k0) 0

def prodDiff (s : ℤ) : List ℤ → ℤ → ℤ
  | [], _ => s
  | k :: l, k0 => if k = k0 then prodDiff s l k0 else prodDiff s l k0 * (k0 - k) / s

/-- Approximate inverse of Vandermonde's matrix: column `j` has the coefficients of the Lagrange polynomial of node `j`. -/
def approxInv (M : ℕ) (s : ℤ) (ks : List ℤ) : List (List ℤ) :=
  cols M (ks.map fun k => let d := prodDiff s ks k; (others s ks k).map fun a => a * s / d)

/-- Approximation of the stiff limit divided by `r`. -/
def approxLimit (M : ℕ) (s : ℤ) (ks : List ℤ) (ds : List ℚ) (r : ℚ) (Y : List (List ℤ)) : List (List ℤ) :=
  (mul M ((List.range M).map fun i => (zRow (ds.getD i 0) r 0 (pows s (ks.getD i 0) (M + 1) s)).map Rat.floor) Y).map
    fun row => row.map (· / s)

end MinCert

end QMat
