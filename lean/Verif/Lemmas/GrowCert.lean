import Verif.Lemmas.SDCRat
import Verif.Lemmas.MinCert
import Verif.Props.SDCSweeps
import Mathlib.LinearAlgebra.Matrix.Charpoly.Eigs

/-!
# Sweeps that do not converge: traces of powers in exact arithmetic
-/

namespace QMat

open Matrix Spec

variable {M : ℕ}

/-- Traces of powers of a matrix whose eigenvalues have modulus at most one. -/
theorem trace_pow_le {A : Matrix (Fin M) (Fin M) ℂ} (h : ∀ μ ∈ spectrum ℂ A, ‖μ‖ ≤ 1) {N : ℕ} (hN : 0 < N) :
    ‖(A ^ N).trace‖ ≤ M := by
  have hroot : ∀ μ ∈ (A ^ N).charpoly.roots, ‖μ‖ ≤ 1 := by
    intro μ hμ
    have h1 : μ ∈ spectrum ℂ (A ^ N) :=
      mem_spectrum_of_isRoot_charpoly (Polynomial.isRoot_of_mem_roots hμ)
    rcases isEmpty_or_nonempty (Fin M) with hE | hE
    · have : Subsingleton (Matrix (Fin M) (Fin M) ℂ) := inferInstance
      rw [spectrum.of_subsingleton] at h1
      exact absurd h1 (Set.notMem_empty _)
    · rw [spectrum.map_pow_of_pos A hN] at h1
      obtain ⟨ν, hν, rfl⟩ := h1
      rw [norm_pow]
      exact pow_le_one₀ (norm_nonneg _) (h ν hν)
  rw [trace_eq_sum_roots_charpoly]
  refine (norm_multiset_sum_le _).trans ?_
  have h2 : ((A ^ N).charpoly.roots.map fun a => ‖a‖).sum ≤
      ((A ^ N).charpoly.roots.map fun a => ‖a‖).card • (1:ℝ) :=
    Multiset.sum_le_card_nsmul _ _ fun x hx => by
      obtain ⟨μ, hμ, rfl⟩ := Multiset.mem_map.mp hx
      exact hroot μ hμ
  refine h2.trans ?_
  rw [Multiset.card_map, nsmul_eq_mul, mul_one]
  have h3 := Polynomial.card_roots' (A ^ N).charpoly
  rw [charpoly_natDegree_eq_dim, Fintype.card_fin] at h3
  exact_mod_cast h3

namespace Grow

open MinCert

def addM (M : ℕ) (f : ℤ → ℤ → ℤ) (A B : List (List ℤ)) : List (List ℤ) :=
  (List.range M).map fun i => (List.range M).map fun j => f ((A.getD i []).getD j 0) ((B.getD i []).getD j 0)

def trace (M : ℕ) (A : List (List ℤ)) : ℤ := ((List.range M).map fun i => (A.getD i []).getD i 0).sum

/-- Real and imaginary part after `k` squarings, and the denominator: the trace has modulus larger than `M`. -/
def powGrows (M : ℕ) : ℕ → List (List ℤ) → List (List ℤ) → ℤ → Bool
  | 0, A, B, s => decide ((M * s) ^ 2 < trace M A ^ 2 + trace M B ^ 2)
  | k + 1, A, B, s =>
    powGrows M k (addM M (· - ·) (mul M A A) (mul M B B)) (addM M (· + ·) (mul M A B) (mul M B A)) (s * s)

theorem shape_addM (f : ℤ → ℤ → ℤ) (A B : List (List ℤ)) : shape M (addM M f A B) = true := by simp [shape, addM]

theorem ent_addM (f : ℤ → ℤ → ℤ) (A B : List (List ℤ)) (i j : Fin M) :
    ((addM M f A B).getD i []).getD j 0 = f ((A.getD i []).getD j 0) ((B.getD i []).getD j 0) := by
  rw [addM, getD_map (by simp) 0, getD_map (by simp) 0]
  simp

/-- The complex matrix. -/
noncomputable def cplx (M : ℕ) (A B : List (List ℤ)) : Matrix (Fin M) (Fin M) ℂ :=
  cmat (mat M A) + Complex.I • cmat (mat M B)

theorem cplx_sq {A B : List (List ℤ)} (hA : shape M A = true) (hB : shape M B = true) :
    cplx M (addM M (· - ·) (mul M A A) (mul M B B)) (addM M (· + ·) (mul M A B) (mul M B A)) =
      cplx M A B * cplx M A B := by
  have e1 : mat M (addM M (· - ·) (mul M A A) (mul M B B)) = mat M A * mat M A - mat M B * mat M B := by
    rw [← mat_mul hA hA, ← mat_mul hB hB]
    ext i j
    rw [Matrix.sub_apply]
    simp only [mat, of_apply, ent_addM]
    push_cast
    rfl
  have e2 : mat M (addM M (· + ·) (mul M A B) (mul M B A)) = mat M A * mat M B + mat M B * mat M A := by
    rw [← mat_mul hA hB, ← mat_mul hB hA]
    ext i j
    rw [Matrix.add_apply]
    simp only [mat, of_apply, ent_addM]
    push_cast
    rfl
  have hm : ∀ X Y : Matrix (Fin M) (Fin M) ℝ, cmat (X * Y) = cmat X * cmat Y := fun X Y => by
    ext i j; simp [cmat, mul_apply]
  have hs : ∀ X Y : Matrix (Fin M) (Fin M) ℝ, cmat (X - Y) = cmat X - cmat Y := fun X Y => by ext i j; simp [cmat]
  have ha : ∀ X Y : Matrix (Fin M) (Fin M) ℝ, cmat (X + Y) = cmat X + cmat Y := fun X Y => by ext i j; simp [cmat]
  simp only [cplx]
  rw [e1, e2, hs, ha, hm, hm, hm, hm, mul_add, add_mul, add_mul, Matrix.smul_mul, Matrix.mul_smul, Matrix.smul_mul,
    Matrix.mul_smul, smul_smul, Complex.I_mul_I]
  module

theorem trace_cplx {A B : List (List ℤ)} : (cplx M A B).trace = trace M A + Complex.I * trace M B := by
  have h : ∀ A : List (List ℤ), ((trace M A : ℤ) : ℂ) = (cmat (mat M A)).trace := by
    intro A
    have e : trace M A = ∑ i : Fin M, (A.getD i []).getD i 0 := by
      have : trace M A = ∑ i ∈ Finset.range M, (A.getD i []).getD i 0 := rfl
      rw [this, Finset.sum_range]
    rw [e, Matrix.trace]
    simp [cmat, mat]
  rw [cplx, trace_add, trace_smul, h, h, smul_eq_mul]

theorem powGrows_sound {k : ℕ} {A B : List (List ℤ)} (hA : shape M A = true) (hB : shape M B = true) {s : ℤ} (hs : 0 < s)
    (h : powGrows M k A B s = true) {S : Matrix (Fin M) (Fin M) ℂ} (hS : (s : ℂ) • S = cplx M A B) :
    (M:ℝ) < ‖(S ^ 2 ^ k).trace‖ := by
  have hsR : (0:ℝ) < s := by exact_mod_cast hs
  induction k generalizing A B s S with
  | zero =>
    simp only [powGrows, decide_eq_true_eq] at h
    have h' : ((M:ℝ) * s) ^ 2 < (trace M A : ℝ) ^ 2 + (trace M B : ℝ) ^ 2 := by exact_mod_cast h
    have e : ‖(cplx M A B).trace‖ ^ 2 = (trace M A : ℝ) ^ 2 + (trace M B : ℝ) ^ 2 := by
      rw [trace_cplx, ← Complex.normSq_eq_norm_sq, Complex.normSq_apply]
      simp
      ring
    rw [pow_zero, pow_one]
    rw [← hS, trace_smul, norm_smul] at e
    have hn : ‖(s:ℂ)‖ = s := by rw [Complex.norm_intCast, abs_of_pos hsR]
    rw [hn] at e
    rw [← e] at h'
    have := lt_of_pow_lt_pow_left₀ 2 (by positivity) h'
    rw [mul_comm] at this
    exact lt_of_mul_lt_mul_left this hsR.le
  | succ k ih =>
    rw [powGrows] at h
    have := ih (shape_addM _ _ _) (shape_addM _ _ _) (mul_pos hs hs) h (S := S * S) (by
      rw [cplx_sq hA hB, ← hS, Matrix.smul_mul, Matrix.mul_smul, smul_smul]
      push_cast
      rfl) (by exact_mod_cast mul_pos hs hs)
    rw [pow_succ', pow_mul, pow_two]
    exact this

/-- The sweep matrix for `z = i y` times a common denominator, with a diagonal `cs`. -/
def entry (y : ℤ) (Q : List (List ℚ)) (cs : List ℚ) (i j : ℕ) : ℚ :=
  y * ((Q.getD i []).getD j 0 - if i = j then cs.getD i 0 else 0) / (1 + y ^ 2 * cs.getD i 0 ^ 2)

def denom (M : ℕ) (y : ℤ) (Q : List (List ℚ)) (cs : List ℚ) : ℕ :=
  (List.range M).foldl (fun n i => (List.range M).foldl (fun n j =>
    Nat.lcm (Nat.lcm n (entry y Q cs i j).den) (y * cs.getD i 0 * entry y Q cs i j).den) n) 1

def imag (M : ℕ) (y s : ℤ) (Q : List (List ℚ)) (cs : List ℚ) : List (List ℤ) :=
  (List.range M).map fun i => (List.range M).map fun j => (s * entry y Q cs i j).num

def real (M : ℕ) (y s : ℤ) (Q : List (List ℚ)) (cs : List ℚ) : List (List ℤ) :=
  (List.range M).map fun i => (List.range M).map fun j => -(s * (y * cs.getD i 0 * entry y Q cs i j)).num

def sweepGrows (M : ℕ) (y : ℤ) (k : ℕ) (Q : List (List ℚ)) (cs : List ℚ) : Bool :=
  let s : ℤ := denom M y Q cs
  decide (0 < s) && ((List.range M).all fun i => (List.range M).all fun j =>
    decide ((s * entry y Q cs i j).den = 1) && decide ((s * (y * cs.getD i 0 * entry y Q cs i j)).den = 1)) &&
  powGrows M k (real M y s Q cs) (imag M y s Q cs) s

theorem num_of_den {q : ℚ} (h : q.den = 1) : ((q.num : ℤ) : ℝ) = (q : ℝ) := by
  have : (q.num : ℚ) = q := by
    conv_rhs => rw [← Rat.num_div_den q, h]
    simp
  exact_mod_cast congrArg (fun x : ℚ => (x : ℝ)) this

theorem sweepGrows_sound {y : ℤ} {k : ℕ} {Q : List (List ℚ)} {cs : List ℚ} (h : sweepGrows M y k Q cs = true) :
    (1 - ((y : ℂ) * Complex.I) • cmat (diagonal fun i : Fin M => ((cs.getD i 0 : ℚ) : ℝ))).det ≠ 0 ∧
    ∃ μ ∈ spectrum ℂ (sweepMatrix ((y : ℂ) * Complex.I) (SDCRat.mat M Q)
      (diagonal fun i : Fin M => ((cs.getD i 0 : ℚ) : ℝ))), 1 < ‖μ‖ := by
  have e1 : (1 - ((y : ℂ) * Complex.I) • cmat (diagonal fun i : Fin M => ((cs.getD i 0 : ℚ) : ℝ))) =
      diagonal fun i : Fin M => 1 - (y : ℂ) * Complex.I * ((cs.getD i 0 : ℚ) : ℝ) := by
    ext a b
    by_cases hab : a = b
    · subst hab; simp [cmat]
    · simp [cmat, hab]
  have hdet : (1 - ((y : ℂ) * Complex.I) • cmat (diagonal fun i : Fin M => ((cs.getD i 0 : ℚ) : ℝ))).det ≠ 0 := by
    rw [e1, det_diagonal, Finset.prod_ne_zero_iff]
    intro i _ h0
    have := congrArg Complex.re h0
    simp at this
  refine ⟨hdet, ?_⟩
  by_contra hno
  push Not at hno
  have hμ := hno
  simp only [sweepGrows, Bool.and_eq_true, decide_eq_true_eq, List.all_eq_true, List.mem_range] at h
  obtain ⟨⟨hs, hden⟩, hp⟩ := h
  set s : ℤ := (denom M y Q cs : ℤ) with hsd
  have hsh : shape M (real M y s Q cs) = true := by simp [shape, real]
  have hsh' : shape M (imag M y s Q cs) = true := by simp [shape, imag]
  refine absurd (trace_pow_le hμ (Nat.two_pow_pos k)) (not_le.mpr (powGrows_sound hsh hsh' hs hp ?_))
  rw [sweepMatrix, ← Matrix.mul_smul]
  have hU := isUnit_iff_ne_zero.mpr hdet
  have key : (s:ℂ) • ((y : ℂ) * Complex.I) • cmat (SDCRat.mat M Q - diagonal fun i : Fin M => ((cs.getD i 0 : ℚ) : ℝ)) =
      (1 - ((y : ℂ) * Complex.I) • cmat (diagonal fun i : Fin M => ((cs.getD i 0 : ℚ) : ℝ))) *
        cplx M (real M y s Q cs) (imag M y s Q cs) := by
    ext i j
    rw [e1, diagonal_mul]
    have eB : ((((imag M y s Q cs).getD i []).getD j 0 : ℤ) : ℝ) = s * (entry y Q cs i j : ℚ) := by
      rw [imag, getD_map (by simp) 0, getD_map (by simp) 0]
      simp only [List.getD_eq_getElem?_getD, List.getElem?_range i.2, List.getElem?_range j.2, Option.getD_some]
      rw [num_of_den (hden i i.2 j j.2).1]
      push_cast
      rfl
    have eA : ((((real M y s Q cs).getD i []).getD j 0 : ℤ) : ℝ) =
        -(s * (y * (cs.getD i 0 : ℚ) * (entry y Q cs i j : ℚ))) := by
      rw [real, getD_map (by simp) 0, getD_map (by simp) 0]
      simp only [List.getD_eq_getElem?_getD, List.getElem?_range i.2, List.getElem?_range j.2, Option.getD_some]
      have := num_of_den (hden i i.2 j j.2).2
      simp only [List.getD_eq_getElem?_getD] at this
      push_cast at this ⊢
      rw [this]
    have e2 : cplx M (real M y s Q cs) (imag M y s Q cs) i j =
        ((-(s * (y * (cs.getD i 0 : ℚ) * (entry y Q cs i j : ℚ))) : ℝ) : ℂ) +
          Complex.I * ((s * (entry y Q cs i j : ℚ) : ℝ) : ℂ) := by
      rw [← eA, ← eB]
      simp [cplx, cmat, mat]
    rw [e2]
    have e3 : (s:ℂ) • ((y : ℂ) * Complex.I) •
        cmat (SDCRat.mat M Q - diagonal fun i : Fin M => ((cs.getD i 0 : ℚ) : ℝ)) = ((s:ℂ) * (y * Complex.I)) •
        cmat (SDCRat.mat M Q - diagonal fun i : Fin M => ((cs.getD i 0 : ℚ) : ℝ)) := by rw [smul_smul]
    rw [e3, Matrix.smul_apply]
    have e4 : cmat (SDCRat.mat M Q - diagonal fun i : Fin M => ((cs.getD i 0 : ℚ) : ℝ)) i j =
        ((((Q.getD i []).getD j 0 : ℚ) - (if (i:ℕ) = j then cs.getD i 0 else 0 : ℚ) : ℝ) : ℂ) := by
      simp only [cmat, map_apply, Matrix.sub_apply, SDCRat.mat, SDCRat.vec, of_apply, diagonal_apply, Fin.ext_iff]
      congr 2
      split_ifs <;> simp
    rw [e4]
    set d : ℚ := cs.getD i 0
    set b : ℚ := (Q.getD i []).getD j 0 - if (i:ℕ) = j then d else 0 with hb
    have hbR : (((Q.getD i []).getD j 0 : ℚ) : ℝ) - ((if (i:ℕ) = j then d else 0 : ℚ) : ℝ) = (b : ℝ) := by
      rw [hb]; push_cast; ring
    rw [hbR]
    have hpos : (1 + (y:ℝ) ^ 2 * (d:ℝ) ^ 2) ≠ 0 := by positivity
    have e5 : ((entry y Q cs i j : ℚ) : ℝ) = y * b / (1 + (y:ℝ) ^ 2 * (d:ℝ) ^ 2) := by
      rw [entry]
      push_cast [hb]
      rfl
    rw [e5]
    have hposC : (1 + (y:ℂ) ^ 2 * (d:ℂ) ^ 2) ≠ 0 := by exact_mod_cast hpos
    rw [div_eq_mul_inv]
    push_cast
    rw [smul_eq_mul]
    have hw := inv_mul_cancel₀ hposC
    generalize (1 + (y:ℂ) ^ 2 * (d:ℂ) ^ 2)⁻¹ = w at hw ⊢
    linear_combination (-(s:ℂ) * y * b * Complex.I) * hw + ((s:ℂ) * y ^ 2 * b * w * d) * Complex.I_sq
  rw [key, ← mul_assoc, nonsing_inv_mul _ hU, one_mul]

end Grow

end QMat
