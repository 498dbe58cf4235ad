import Verif.Lemmas.HalfPlane
import Verif.Lemmas.MinCert

/-!
# Matrices `D - ν E` without eigenvalues in the left half-plane for `|ν| ≤ 1`

The characteristic polynomial is computed by the method of Faddeev and Leverrier with exact integers.
-/

namespace QMat.HalfPlane

open Complex Polynomial Matrix MinCert Spec

attribute [local instance] Matrix.linftyOpNormedAddCommGroup Matrix.linftyOpNormedRing Matrix.linftyOpNormedSpace
  Matrix.linftyOpNormedAlgebra

variable {M : ℕ}

/-! ## Polynomials packed into one integer -/

/-- Value at `X`. -/
def enc (X : ℤ) : List ℤ → ℤ
  | [] => 0
  | a :: l => a + X * enc X l

/-- `n` digits to base `X`, between `-X / 2` and `X / 2`. -/
def dec (X : ℤ) : ℕ → ℤ → List ℤ
  | 0, _ => []
  | n + 1, v =>
    let r := v % X
    let a := if 2 * r < X then r else r - X
    a :: dec X n ((v - a) / X)

theorem dec_small {X : ℤ} (hX : 0 < X) (n : ℕ) (v : ℤ) : ∀ a ∈ dec X n v, 2 * |a| ≤ X := by
  induction n generalizing v with
  | zero => simp [dec]
  | succ n ih =>
    intro a ha
    rcases List.mem_cons.mp ha with rfl | ha
    · have h1 := Int.emod_nonneg v hX.ne'
      have h2 := Int.emod_lt_of_pos v hX
      split_ifs with h
      · rw [abs_of_nonneg h1]; omega
      · rw [abs_of_neg (by omega)]; omega
    · exact ih _ a ha

theorem rowSum_nonneg (x : List ℤ) : 0 ≤ rowSum x := by
  induction x with
  | nil => simp [rowSum]
  | cons a x ih => rw [rowSum]; positivity

/-- An integer polynomial as a function: the value at `X` is `v`, and the coefficients have sum at most `b`. -/
def PolyB (X : ℤ) (f : ℂ → ℂ) (v b : ℤ) : Prop :=
  ∃ l : List ℤ, (∀ x, lev (fun a : ℤ => (a : ℂ)) x l = f x) ∧ enc X l = v ∧ rowSum l ≤ b

theorem enc_eq_zero {X : ℤ} {y : List ℤ} (h0 : enc X y = 0) (hy : ∀ a ∈ y, 2 * |a| ≤ X) (hX : 0 < X) (W : ℂ) :
    lev (fun a : ℤ => (a : ℂ)) W y = 0 := by
  induction y with
  | nil => rfl
  | cons a y ih =>
    rw [enc] at h0
    have ha := hy a List.mem_cons_self
    have hd : X ∣ a := ⟨-enc X y, by linarith⟩
    have ha0 : a = 0 := Int.eq_zero_of_abs_lt_dvd hd (by linarith [abs_nonneg a])
    have h1 : enc X y = 0 := by
      rw [ha0, zero_add] at h0
      exact (mul_eq_zero.mp h0).resolve_left hX.ne'
    rw [lev, ih h1 fun c hc => hy c (List.mem_cons_of_mem _ hc), ha0]
    simp

/-- Digits are unique. -/
theorem enc_unique {X : ℤ} (hX : 0 < X) {x y : List ℤ} (h : enc X x = enc X y) (hx : 2 * rowSum x < X)
    (hy : ∀ a ∈ y, 2 * |a| ≤ X) (W : ℂ) :
    lev (fun a : ℤ => (a : ℂ)) W x = lev (fun a : ℤ => (a : ℂ)) W y := by
  induction x generalizing y with
  | nil => rw [enc_eq_zero h.symm hy hX W]; rfl
  | cons a x ih =>
    rw [rowSum] at hx
    have hr := rowSum_nonneg x
    cases y with
    | nil =>
      rw [enc_eq_zero (y := a :: x) h ?_ hX W]
      · rfl
      · have : ∀ l : List ℤ, ∀ c ∈ l, |c| ≤ rowSum l := by
          intro l
          induction l with
          | nil => simp
          | cons d l ih =>
            intro c hc
            rw [rowSum]
            rcases List.mem_cons.mp hc with rfl | hc
            · linarith [rowSum_nonneg l]
            · linarith [ih c hc, abs_nonneg d]
        intro c hc
        have := this _ c hc
        rw [rowSum] at this
        linarith
    | cons b y =>
      rw [enc, enc] at h
      have hb := hy b List.mem_cons_self
      have hd : X ∣ a - b := ⟨enc X y - enc X x, by linarith⟩
      have hab : a - b = 0 := by
        refine Int.eq_zero_of_abs_lt_dvd hd ?_
        have := abs_sub a b
        linarith
      have h1 : enc X x = enc X y := by
        have : X * (enc X x - enc X y) = 0 := by linarith
        linarith [(mul_eq_zero.mp this).resolve_left hX.ne']
      rw [lev, lev, ih h1 (by linarith [abs_nonneg a]) fun c hc => hy c (List.mem_cons_of_mem _ hc), sub_eq_zero.mp hab]

theorem PolyB.decoded {X : ℤ} (hX : 0 < X) {f : ℂ → ℂ} {v b : ℤ} (h : PolyB X f v b) (hb : 2 * b < X) {n : ℕ}
    (hd : enc X (dec X n v) = v) (W : ℂ) : lev (fun a : ℤ => (a : ℂ)) W (dec X n v) = f W := by
  obtain ⟨l, h1, h2, h3⟩ := h
  rw [← h1]
  exact (enc_unique hX (h2.trans hd.symm) (by linarith) (dec_small hX n v) W).symm

theorem PolyB.eq_zero {X : ℤ} (hX : 0 < X) {f : ℂ → ℂ} {b : ℤ} (h : PolyB X f 0 b) (hb : 2 * b < X) (W : ℂ) :
    f W = 0 := by
  have := h.decoded hX hb (n := 0) rfl W
  rw [← this]; rfl

theorem enc_add (X : ℤ) (p q : List ℤ) : enc X (ladd p q) = enc X p + enc X q ∧ rowSum (ladd p q) ≤ rowSum p + rowSum q := by
  induction p generalizing q with
  | nil => simp [ladd, enc, rowSum]
  | cons a p ih =>
    cases q with
    | nil => simp [ladd, enc, rowSum]
    | cons b q =>
      simp only [ladd, enc, rowSum, (ih q).1]
      exact ⟨by ring, by linarith [(ih q).2, abs_add_le a b]⟩

theorem enc_sub (X : ℤ) (p q : List ℤ) : enc X (lsub p q) = enc X p - enc X q ∧ rowSum (lsub p q) ≤ rowSum p + rowSum q := by
  induction q generalizing p with
  | nil => cases p <;> simp [lsub, enc, rowSum]
  | cons b q ih =>
    cases p with
    | nil =>
      have h := ih []
      simp only [lsub, enc, rowSum, h.1]
      refine ⟨by ring, ?_⟩
      have := h.2
      rw [rowSum] at this
      rw [zero_sub, abs_neg]
      linarith
    | cons a p =>
      simp only [lsub, enc, rowSum, (ih p).1]
      exact ⟨by ring, by linarith [(ih p).2, abs_sub a b]⟩

theorem enc_map (X a : ℤ) (p : List ℤ) : enc X (p.map (a * ·)) = a * enc X p ∧ rowSum (p.map (a * ·)) = |a| * rowSum p := by
  induction p with
  | nil => simp [enc, rowSum]
  | cons b p ih =>
    simp only [List.map_cons, enc, rowSum, ih.1, ih.2, abs_mul]
    exact ⟨by ring, by ring⟩

theorem enc_mul (X : ℤ) (p q : List ℤ) : enc X (lmul p q) = enc X p * enc X q ∧ rowSum (lmul p q) ≤ rowSum p * rowSum q := by
  induction p with
  | nil => simp [lmul, enc, rowSum]
  | cons a p ih =>
    simp only [lmul, enc, rowSum]
    obtain ⟨h1, h2⟩ := enc_add X (q.map (a * ·)) (0 :: lmul p q)
    rw [(enc_map X a q).1, enc, ih.1] at h1
    rw [(enc_map X a q).2, rowSum, abs_zero] at h2
    exact ⟨by rw [h1]; ring, by linarith [ih.2]⟩

theorem PolyB.of_list (X : ℤ) (l : List ℤ) : PolyB X (fun x => lev (fun a : ℤ => (a : ℂ)) x l) (enc X l) (rowSum l) :=
  ⟨l, fun _ => rfl, rfl, le_rfl⟩

theorem PolyB.zero (X : ℤ) : PolyB X 0 0 0 := ⟨[], fun _ => rfl, rfl, le_rfl⟩

theorem PolyB.const (X c : ℤ) : PolyB X (fun _ => (c : ℂ)) c |c| :=
  ⟨[c], fun x => by simp [lev], by simp [enc], by simp [rowSum]⟩

theorem PolyB.id (X : ℤ) : PolyB X (fun x => x) X 1 :=
  ⟨[0, 1], fun x => by simp [lev], by simp [enc], by simp [rowSum]⟩

theorem PolyB.add {X : ℤ} {f g : ℂ → ℂ} {v w b c : ℤ} (hf : PolyB X f v b) (hg : PolyB X g w c) :
    PolyB X (f + g) (v + w) (b + c) := by
  obtain ⟨l, h1, h2, h3⟩ := hf
  obtain ⟨m, g1, g2, g3⟩ := hg
  refine ⟨ladd l m, fun x => ?_, ?_, (enc_add X l m).2.trans (add_le_add h3 g3)⟩
  · rw [lev_add hom_int, h1, g1]; rfl
  · rw [(enc_add X l m).1, h2, g2]

theorem PolyB.sub {X : ℤ} {f g : ℂ → ℂ} {v w b c : ℤ} (hf : PolyB X f v b) (hg : PolyB X g w c) :
    PolyB X (f - g) (v - w) (b + c) := by
  obtain ⟨l, h1, h2, h3⟩ := hf
  obtain ⟨m, g1, g2, g3⟩ := hg
  refine ⟨lsub l m, fun x => ?_, ?_, (enc_sub X l m).2.trans (add_le_add h3 g3)⟩
  · rw [lev_sub hom_int, h1, g1]; rfl
  · rw [(enc_sub X l m).1, h2, g2]

theorem PolyB.nonneg {X : ℤ} {f : ℂ → ℂ} {v b : ℤ} (hf : PolyB X f v b) : 0 ≤ b := by
  obtain ⟨l, -, -, h⟩ := hf
  exact (rowSum_nonneg l).trans h

theorem PolyB.mul {X : ℤ} {f g : ℂ → ℂ} {v w b c : ℤ} (hf : PolyB X f v b) (hg : PolyB X g w c) :
    PolyB X (f * g) (v * w) (b * c) := by
  have hb := hf.nonneg
  obtain ⟨l, h1, h2, h3⟩ := hf
  obtain ⟨m, g1, g2, g3⟩ := hg
  refine ⟨lmul l m, fun x => ?_, ?_, (enc_mul X l m).2.trans (mul_le_mul h3 g3 (rowSum_nonneg m) hb)⟩
  · rw [lev_mul hom_int, h1, g1]; rfl
  · rw [(enc_mul X l m).1, h2, g2]

theorem PolyB.sum {X : ℤ} {ι : Type} (s : Finset ι) {f : ι → ℂ → ℂ} {v b : ι → ℤ}
    (h : ∀ i ∈ s, PolyB X (f i) (v i) (b i)) : PolyB X (∑ i ∈ s, f i) (∑ i ∈ s, v i) (∑ i ∈ s, b i) := by
  classical
  induction s using Finset.induction_on with
  | empty => simpa using PolyB.zero X
  | insert a s ha ih =>
    rw [Finset.sum_insert ha, Finset.sum_insert ha, Finset.sum_insert ha]
    exact (h a (Finset.mem_insert_self _ _)).add (ih fun i hi => h i (Finset.mem_insert_of_mem hi))

theorem PolyB.mono {X : ℤ} {f : ℂ → ℂ} {v b c : ℤ} (hf : PolyB X f v b) (hbc : b ≤ c) : PolyB X f v c := by
  obtain ⟨l, h1, h2, h3⟩ := hf
  exact ⟨l, h1, h2, h3.trans hbc⟩

theorem PolyB.norm_le {X : ℤ} {f : ℂ → ℂ} {v b : ℤ} (hf : PolyB X f v b) {x : ℂ} (hx : ‖x‖ ≤ 1) : ‖f x‖ ≤ b := by
  obtain ⟨l, h1, -, h3⟩ := hf
  rw [← h1]
  refine le_trans ?_ (by exact_mod_cast h3 : (rowSum l : ℝ) ≤ b)
  clear h1 h3
  induction l with
  | nil => simp [lev, rowSum]
  | cons a l ih =>
    rw [lev, rowSum]
    push_cast
    refine (norm_add_le _ _).trans (add_le_add (by simp) ?_)
    rw [norm_mul]
    calc _ ≤ 1 * ‖lev (fun a : ℤ => (a : ℂ)) x l‖ := mul_le_mul_of_nonneg_right hx (norm_nonneg _)
      _ ≤ _ := by rw [one_mul]; exact ih

/-! ## The characteristic polynomial -/

/-- `A + c I`. -/
def addOne (M : ℕ) (A : List (List ℤ)) (c : ℤ) : List (List ℤ) :=
  (List.range M).map fun i => (List.range M).map fun j => (A.getD i []).getD j 0 + if i = j then c else 0

/-- `D - Y E`. -/
def pencil (M : ℕ) (Y : ℤ) (ds : List ℤ) (E : List (List ℤ)) : List (List ℤ) :=
  (List.range M).map fun i => (List.range M).map fun j =>
    (if i = j then ds.getD i 0 else 0) - Y * (E.getD i []).getD j 0

def trace (M : ℕ) (A : List (List ℤ)) : ℤ := ((List.range M).map fun i => (A.getD i []).getD i 0).sum

def isZero (A : List (List ℤ)) : Bool := A.all fun r => r.all fun a => a == 0

/-- Coefficients of the characteristic polynomial of the pencil, from the second on, and bounds of the matrices of the
method: `n` steps from the matrix `N` with bound `β`. -/
def flv (M : ℕ) (Y : ℤ) (Cm : List (List ℤ)) (βC : ℤ) : ℕ → ℤ → List (List ℤ) → ℤ → Option (List (List ℤ) × List ℤ)
  | 0, _, N, β => if isZero N && decide (2 * β < Y) then some ([], []) else none
  | n + 1, k, N, β =>
    let A := mul M N Cm
    let c := dec Y (M + 1) (-(trace M A / k))
    match flv M Y Cm βC n (k + 1) (addOne M A (enc Y c)) (β * βC + rowSum c) with
    | none => none
    | some (cs, bs) => some (c :: cs, β :: bs)

theorem cmat_sub (A B : Matrix (Fin M) (Fin M) ℝ) : cmat (A - B) = cmat A - cmat B := by
  ext i j; simp

def ent (A : List (List ℤ)) (i j : ℕ) : ℤ := (A.getD i []).getD j 0

/-- A matrix of polynomials by its value at `Y`, with a bound of the rows. -/
def MatB (Y : ℤ) (N : ℂ → Matrix (Fin M) (Fin M) ℂ) (A : List (List ℤ)) (β : ℤ) : Prop :=
  ∀ i, ∃ b : Fin M → ℤ, (∀ j, PolyB Y (fun ν => N ν i j) (ent A i j) (b j)) ∧ ∑ j, b j ≤ β

theorem shape_addOne (A : List (List ℤ)) (c : ℤ) : shape M (addOne M A c) = true := by simp [shape, addOne]

theorem shape_pencil (Y : ℤ) (ds : List ℤ) (E : List (List ℤ)) : shape M (pencil M Y ds E) = true := by
  simp [shape, pencil]

theorem ent_addOne (A : List (List ℤ)) (c : ℤ) (i j : Fin M) :
    ent (addOne M A c) i j = ent A i j + if i = j then c else 0 := by
  rw [ent, addOne, getD_map (by simp) 0, getD_map (by simp) 0]
  simp [ent, Fin.ext_iff]

theorem ent_pencil (Y : ℤ) (ds : List ℤ) (E : List (List ℤ)) (i j : Fin M) :
    ent (pencil M Y ds E) i j = (if i = j then ds.getD i 0 else 0) - Y * ent E i j := by
  rw [ent, pencil, getD_map (by simp) 0, getD_map (by simp) 0]
  simp [ent, Fin.ext_iff]

theorem ent_mul {A B : List (List ℤ)} (hA : shape M A = true) (hB : shape M B = true) (i j : Fin M) :
    ent (mul M A B) i j = ∑ k : Fin M, ent A i k * ent B k j := by
  have := congrFun (congrFun (mat_mul hA hB) i) j
  rw [mul_apply] at this
  simp only [mat, of_apply] at this
  unfold ent
  exact_mod_cast this

theorem MatB.mul {Y : ℤ} {N C : ℂ → Matrix (Fin M) (Fin M) ℂ} {A B : List (List ℤ)} {β γ : ℤ} (hN : MatB Y N A β)
    (hC : MatB Y C B γ) (hA : shape M A = true) (hB : shape M B = true) (hγ : 0 ≤ γ) :
    MatB Y (fun ν => N ν * C ν) (MinCert.mul M A B) (β * γ) := by
  intro i
  obtain ⟨b, h1, h2⟩ := hN i
  choose c g1 g2 using hC
  refine ⟨fun j => ∑ k, b k * c k j, fun j => ?_, ?_⟩
  · rw [ent_mul hA hB]
    have e : (fun ν => (N ν * C ν) i j) = ∑ k : Fin M, (fun ν => N ν i k) * (fun ν => C ν k j) := by
      funext ν
      rw [mul_apply, Finset.sum_apply]
      rfl
    rw [e]
    exact PolyB.sum _ fun k _ => (h1 k).mul (g1 k j)
  · rw [Finset.sum_comm]
    calc _ = ∑ k, b k * ∑ j, c k j := Finset.sum_congr rfl fun k _ => by rw [Finset.mul_sum]
      _ ≤ ∑ k, b k * γ := Finset.sum_le_sum fun k _ => mul_le_mul_of_nonneg_left (g2 k) (h1 k).nonneg
      _ = (∑ k, b k) * γ := by rw [Finset.sum_mul]
      _ ≤ _ := mul_le_mul_of_nonneg_right h2 hγ

theorem MatB.addOne {Y : ℤ} {N : ℂ → Matrix (Fin M) (Fin M) ℂ} {A : List (List ℤ)} {β : ℤ} (hN : MatB Y N A β)
    (c : List ℤ) : MatB Y (fun ν => N ν + lev (fun a : ℤ => (a : ℂ)) ν c • 1) (HalfPlane.addOne M A (enc Y c))
      (β + rowSum c) := by
  intro i
  obtain ⟨b, h1, h2⟩ := hN i
  refine ⟨fun j => b j + if i = j then rowSum c else 0, fun j => ?_, ?_⟩
  · rw [ent_addOne]
    by_cases hij : i = j
    · subst hij
      simp only [if_true]
      have e : (fun ν => (N ν + lev (fun a : ℤ => (a : ℂ)) ν c • (1 : Matrix (Fin M) (Fin M) ℂ)) i i) =
          (fun ν => N ν i i) + fun ν => lev (fun a : ℤ => (a : ℂ)) ν c := by
        funext ν
        simp [Matrix.add_apply, Matrix.smul_apply]
      rw [e]
      exact (h1 i).add (PolyB.of_list Y c)
    · simp only [if_neg hij, add_zero]
      have e : (fun ν => (N ν + lev (fun a : ℤ => (a : ℂ)) ν c • (1 : Matrix (Fin M) (Fin M) ℂ)) i j) =
          fun ν => N ν i j := by
        funext ν
        simp [Matrix.add_apply, Matrix.smul_apply, Matrix.one_apply_ne hij]
      rw [e]
      exact h1 j
  · rw [Finset.sum_add_distrib]
    simp only [Finset.sum_ite_eq, Finset.mem_univ, if_true]
    linarith

theorem MatB.norm_le {Y : ℤ} {N : ℂ → Matrix (Fin M) (Fin M) ℂ} {A : List (List ℤ)} {β : ℤ} (hN : MatB Y N A β)
    (hβ : 0 ≤ β) {ν : ℂ} (hν : ‖ν‖ ≤ 1) : ‖N ν‖ ≤ β := by
  have hβR : (0:ℝ) ≤ β := by exact_mod_cast hβ
  rw [linfty_opNorm_def]
  have : ∀ i, ∑ j, ‖N ν i j‖ ≤ β := by
    intro i
    obtain ⟨b, h1, h2⟩ := hN i
    calc _ ≤ ∑ j, (b j : ℝ) := Finset.sum_le_sum fun j _ => (h1 j).norm_le hν
      _ ≤ β := by exact_mod_cast h2
  lift (β : ℝ) to NNReal using hβR with β'
  rw [NNReal.coe_le_coe, Finset.sup_le_iff]
  intro i _
  rw [← NNReal.coe_le_coe]
  push_cast
  simpa using this i

theorem MatB.eq_zero {Y : ℤ} {N : ℂ → Matrix (Fin M) (Fin M) ℂ} {A : List (List ℤ)} {β : ℤ} (hN : MatB Y N A β)
    (hA : isZero A = true) (hβ : 2 * β < Y) (hY : 0 < Y) (ν : ℂ) : N ν = 0 := by
  ext i j
  obtain ⟨b, h1, h2⟩ := hN i
  have h0 : ent A i j = 0 := by
    simp only [isZero, List.all_eq_true, beq_iff_eq] at hA
    simp only [ent, List.getD_eq_getElem?_getD]
    by_cases hi : (i:ℕ) < A.length
    · rw [List.getElem?_eq_getElem hi, Option.getD_some]
      by_cases hj : (j:ℕ) < (A[(i:ℕ)]).length
      · rw [List.getElem?_eq_getElem hj, Option.getD_some]
        exact hA _ (List.getElem_mem hi) _ (List.getElem_mem hj)
      · rw [List.getElem?_eq_none (by omega), Option.getD_none]
    · rw [List.getElem?_eq_none (l := A) (by omega)]; simp
  have h3 := h1 j
  rw [h0] at h3
  refine h3.eq_zero hY ?_ ν
  have : b j ≤ ∑ j, b j := Finset.single_le_sum (fun k _ => (h1 k).nonneg) (Finset.mem_univ j)
  linarith

theorem MatB.pencil {Y : ℤ} {ds : List ℤ} {E : List (List ℤ)} (hE : shape M E = true) {d : ℤ}
    (hd : ∀ i : Fin M, |ds.getD i 0| ≤ d) :
    MatB Y (fun ν => cmat (diagonal fun i : Fin M => ((ds.getD i 0 : ℤ) : ℝ)) - ν • cmat (mat M E))
      (HalfPlane.pencil M Y ds E) (d + nrm E) := by
  intro i
  refine ⟨fun j => (if i = j then |ds.getD i 0| else 0) + |ent E i j|, fun j => ?_, ?_⟩
  · rw [ent_pencil]
    have e : (fun ν : ℂ => (cmat (diagonal fun i : Fin M => ((ds.getD i 0 : ℤ) : ℝ)) - ν • cmat (mat M E)) i j) =
        (fun _ => ((if i = j then ds.getD i 0 else 0 : ℤ) : ℂ)) - (fun ν => ν) * fun _ => ((ent E i j : ℤ) : ℂ) := by
      funext ν
      rw [Matrix.sub_apply, Matrix.smul_apply]
      simp only [cmat, mat, map_apply, of_apply, diagonal_apply, smul_eq_mul, Pi.sub_apply, Pi.mul_apply, ent]
      split_ifs with h <;> simp [h]
    rw [e]
    refine ((PolyB.const Y _).sub ((PolyB.id Y).mul (PolyB.const Y _))).mono ?_
    split_ifs with h <;> simp [h]
  · rw [Finset.sum_add_distrib]
    simp only [Finset.sum_ite_eq, Finset.mem_univ, if_true]
    obtain ⟨h1, h2⟩ := shape_row hE i
    have := rowSum_le_nrm h1
    rw [rowSum_eq h2] at this
    exact add_le_add (hd i) this

noncomputable def chi (W ν : ℂ) : List (List ℤ) → ℂ
  | [] => 0
  | c :: cs => W ^ cs.length * lev (fun a : ℤ => (a : ℂ)) ν c + chi W ν cs

noncomputable def bsum (W : ℝ) : List ℤ → ℝ
  | [] => 0
  | b :: bs => b * W ^ bs.length + bsum W bs

/-- The matrix of the method and the characteristic polynomial. -/
theorem flv_sound {Y : ℤ} (hY : 0 < Y) {Cm : List (List ℤ)} {βC : ℤ} (hCs : shape M Cm = true) (hβC : 0 ≤ βC)
    {C : ℂ → Matrix (Fin M) (Fin M) ℂ} (hC : MatB Y C Cm βC) (W : ℂ) {ν : ℂ} (hν : ‖ν‖ ≤ 1)
    {n : ℕ} {k : ℤ} {A : List (List ℤ)} {β : ℤ} (hA : shape M A = true) (hβ : 0 ≤ β)
    {N : ℂ → Matrix (Fin M) (Fin M) ℂ} (hN : MatB Y N A β) {cs : List (List ℤ)} {bs : List ℤ}
    (h : flv M Y Cm βC n k A β = some (cs, bs)) :
    cs.length = n ∧ bs.length = n ∧ (∀ b ∈ bs, 0 ≤ b) ∧ ∃ B : Matrix (Fin M) (Fin M) ℂ,
      B * (W • 1 - C ν) = W ^ n • N ν + chi W ν cs • 1 ∧ ‖B‖ ≤ bsum ‖W‖ bs := by
  induction n generalizing k A β N cs bs with
  | zero =>
    rw [flv] at h
    split_ifs at h with h0
    cases h
    simp only [Bool.and_eq_true, decide_eq_true_eq] at h0
    refine ⟨rfl, rfl, by simp, 0, ?_, by simp [bsum]⟩
    rw [hN.eq_zero h0.1 h0.2 hY]
    simp [chi]
  | succ n ih =>
    rw [flv] at h
    obtain ⟨c, hc⟩ : ∃ c, c = dec Y (M + 1) (-(trace M (MinCert.mul M A Cm) / k)) := ⟨_, rfl⟩
    simp only [← hc] at h
    split at h
    · cases h
    · rename_i cs' bs' heq
      cases h
      have hN' := (hN.mul hC hA hCs hβC).addOne c
      obtain ⟨h1, h2, h3, B, hB, hBn⟩ := ih (shape_addOne _ _)
        (add_nonneg (mul_nonneg hβ hβC) (rowSum_nonneg c)) hN' heq
      refine ⟨by simp [h1], by simp [h2], ?_, W ^ n • N ν + B, ?_, ?_⟩
      · intro b hb
        rcases List.mem_cons.mp hb with rfl | hb
        · exact hβ
        · exact h3 b hb
      · rw [Matrix.add_mul, hB, chi, h1]
        simp only [Matrix.smul_mul, Matrix.mul_sub, Matrix.mul_smul, Matrix.mul_one, pow_succ]
        module
      · rw [bsum, h2]
        refine (norm_add_le _ _).trans (add_le_add ?_ hBn)
        rw [norm_smul, norm_pow, mul_comm]
        exact mul_le_mul_of_nonneg_right (hN.norm_le hβ hν) (by positivity)

/-! ## The polynomial of `ν` with coefficients in `ℤ[W]` -/

def LP.len (p : LP) : ℕ := List.length p

/-- One more coefficient at the end. -/
def LP.snoc (p : LP) (a : ℤ) : LP := List.append p [a]

def appendCoeff : List LP → List ℤ → List LP
  | [], _ => []
  | p :: ps, [] => p.snoc 0 :: appendCoeff ps []
  | p :: ps, a :: c => p.snoc a :: appendCoeff ps c

def conv (n : ℕ) : List (List ℤ) → List LP
  | [] => List.replicate n 0
  | c :: cs => appendCoeff (conv n cs) c

theorem len_snoc (p : LP) (a : ℤ) : (p.snoc a).len = p.len + 1 := by
  change (List.append p [a]).length = List.length p + 1
  exact List.length_append

theorem pev_snoc (W : ℂ) (p : LP) (a : ℤ) : pev W (p.snoc a) = pev W p + W ^ p.len * a := by
  have : ∀ q : List ℤ, lev (fun a : ℤ => (a : ℂ)) W (q ++ [a]) = lev (fun a : ℤ => (a : ℂ)) W q + W ^ q.length * a := by
    intro q
    induction q with
    | nil => simp [lev]
    | cons b p ih =>
      simp only [List.cons_append, lev, ih, List.length_cons, pow_succ']
      ring
  exact this p

theorem appendCoeff_spec (W ν : ℂ) {L : ℕ} {ps : List LP} (hL : ∀ p ∈ ps, p.len = L) {c : List ℤ}
    (hc : c.length ≤ ps.length) :
    (appendCoeff ps c).length = ps.length ∧ (∀ p ∈ appendCoeff ps c, p.len = L + 1) ∧
    lev (pev W) ν (appendCoeff ps c) = lev (pev W) ν ps + W ^ L * lev (fun a : ℤ => (a : ℂ)) ν c := by
  induction ps generalizing c with
  | nil =>
    have : c = [] := List.length_eq_zero_iff.mp (by simpa using hc)
    subst this
    simp [appendCoeff, lev]
  | cons p ps ih =>
    have hp := hL p List.mem_cons_self
    have hps := fun q hq => hL q (List.mem_cons_of_mem _ hq)
    cases c with
    | nil =>
      obtain ⟨h1, h2, h3⟩ := ih hps (c := []) (by simp)
      refine ⟨by simp [appendCoeff, h1], ?_, ?_⟩
      · intro q hq
        rcases List.mem_cons.mp hq with rfl | hq
        · rw [len_snoc, hp]
        · exact h2 q hq
      · simp only [appendCoeff, lev]
        rw [pev_snoc, h3, hp]
        simp only [lev]
        push_cast
        ring
    | cons a c =>
      obtain ⟨h1, h2, h3⟩ := ih hps (c := c) (by simpa using hc)
      refine ⟨by simp [appendCoeff, h1], ?_, ?_⟩
      · intro q hq
        rcases List.mem_cons.mp hq with rfl | hq
        · rw [len_snoc, hp]
        · exact h2 q hq
      · simp only [appendCoeff, lev]
        rw [pev_snoc, h3, hp]
        ring

theorem conv_spec (W ν : ℂ) {n : ℕ} {cs : List (List ℤ)} (h : ∀ c ∈ cs, c.length ≤ n) :
    (conv n cs).length = n ∧ (∀ p ∈ conv n cs, p.len = cs.length) ∧ lev (pev W) ν (conv n cs) = chi W ν cs := by
  induction cs with
  | nil =>
    refine ⟨by simp [conv], ?_, ?_⟩
    · intro p hp
      rw [conv, List.mem_replicate] at hp
      rw [hp.2]
      rfl
    · rw [conv, chi]
      induction n with
      | zero => simp [lev]
      | succ n ih =>
        rw [List.replicate_succ, lev, ih]
        · rw [(hom_pev W).zero, mul_zero, add_zero]
        · simp
  | cons c cs ih =>
    obtain ⟨h1, h2, h3⟩ := ih fun d hd => h d (List.mem_cons_of_mem _ hd)
    obtain ⟨g1, g2, g3⟩ := appendCoeff_spec W ν h2 (c := c) (by rw [h1]; exact h c List.mem_cons_self)
    exact ⟨by rw [conv, g1, h1], g2, by rw [conv, g3, h3, chi]; ring⟩

/-- `∏ (W - d)`. -/
def prodPoly : List ℤ → LP
  | [] => ([1] : List ℤ)
  | d :: l => (lmul [-d, 1] (prodPoly l : List ℤ) : List ℤ)

theorem pev_prodPoly (W : ℂ) (l : List ℤ) : pev W (prodPoly l) = (l.map fun d : ℤ => W - d).prod := by
  induction l with
  | nil => simp [prodPoly, pev, lev]
  | cons d l ih =>
    have e : pev W (prodPoly (d :: l)) = lev (fun a : ℤ => (a : ℂ)) W [-d, 1] * pev W (prodPoly l) :=
      lev_mul hom_int W [-d, 1] (prodPoly l)
    rw [e, ih, List.map_cons, List.prod_cons]
    congr 1
    simp only [lev]
    push_cast
    ring

/-! ## Graeffe's method with packed coefficients -/

/-- Value and bound of a packed polynomial. -/
structure KP where
  v : ℤ
  b : ℤ

instance : Zero KP := ⟨⟨0, 0⟩⟩
instance : Add KP := ⟨fun k l => ⟨k.v + l.v, k.b + l.b⟩⟩
instance : Sub KP := ⟨fun k l => ⟨k.v - l.v, k.b + l.b⟩⟩
instance : Mul KP := ⟨fun k l => ⟨k.v * l.v, k.b * l.b⟩⟩

def encK (X : ℤ) (l : List ℤ) : KP := ⟨enc X l, rowSum l⟩

def constK (c : ℤ) : KP := ⟨c, |c|⟩

/-- The digits determine the polynomial. -/
def KP.ok (k : KP) (X : ℤ) (n : ℕ) : Bool := decide (2 * k.b < X) && decide (enc X (dec X n k.v) = k.v)

def Rel (X : ℤ) (f : ℂ → ℂ) (k : KP) : Prop := PolyB X f k.v k.b

theorem Rel.decoded {X : ℤ} {f : ℂ → ℂ} {k : KP} (h : Rel X f k) (hX : 0 < X) {n : ℕ} (hk : k.ok X n = true) (W : ℂ) :
    lev (fun a : ℤ => (a : ℂ)) W (dec X n k.v) = f W := by
  simp only [KP.ok, Bool.and_eq_true, decide_eq_true_eq] at hk
  exact PolyB.decoded hX h hk.1 hk.2 W

theorem rel_ladd {X : ℤ} {p q : List (ℂ → ℂ)} {k l : List KP} (h : List.Forall₂ (Rel X) p k)
    (h' : List.Forall₂ (Rel X) q l) : List.Forall₂ (Rel X) (ladd p q) (ladd k l) := by
  induction h generalizing q l with
  | nil => simpa [ladd] using h'
  | cons ha hr ih =>
    cases h' with
    | nil => exact .cons ha hr
    | cons hb hq => exact .cons (PolyB.add ha hb) (ih hq)

theorem rel_lsub {X : ℤ} {p q : List (ℂ → ℂ)} {k l : List KP} (h : List.Forall₂ (Rel X) p k)
    (h' : List.Forall₂ (Rel X) q l) : List.Forall₂ (Rel X) (lsub p q) (lsub k l) := by
  induction h' generalizing p k with
  | nil => cases h with
    | nil => exact .nil
    | cons ha hr => exact .cons ha hr
  | cons hb hq ih =>
    cases h with
    | nil => exact .cons (PolyB.sub (PolyB.zero X) hb) (ih .nil)
    | cons ha hr => exact .cons (PolyB.sub ha hb) (ih hr)

theorem rel_map {X : ℤ} {f : ℂ → ℂ} {a : KP} (hf : Rel X f a) {p : List (ℂ → ℂ)} {k : List KP}
    (h : List.Forall₂ (Rel X) p k) : List.Forall₂ (Rel X) (p.map (f * ·)) (k.map (a * ·)) := by
  induction h with
  | nil => exact .nil
  | cons ha _ ih => exact .cons (PolyB.mul hf ha) ih

theorem rel_lmul {X : ℤ} {p q : List (ℂ → ℂ)} {k l : List KP} (h : List.Forall₂ (Rel X) p k)
    (h' : List.Forall₂ (Rel X) q l) : List.Forall₂ (Rel X) (lmul p q) (lmul k l) := by
  induction h with
  | nil => exact .nil
  | cons ha _ ih => exact rel_ladd (rel_map ha h') (.cons (PolyB.zero X) ih)

theorem rel_split {X : ℤ} {p : List (ℂ → ℂ)} {k : List KP} (h : List.Forall₂ (Rel X) p k) :
    List.Forall₂ (Rel X) (split p).1 (split k).1 ∧ List.Forall₂ (Rel X) (split p).2 (split k).2 := by
  induction h with
  | nil => exact ⟨.nil, .nil⟩
  | cons ha _ ih => exact ⟨.cons ha ih.2, ih.1⟩

theorem rel_graeffe {X : ℤ} {p : List (ℂ → ℂ)} {k : List KP} (h : List.Forall₂ (Rel X) p k) (K : ℕ) :
    List.Forall₂ (Rel X) (graeffe^[K] p) (graeffe^[K] k) := by
  induction K generalizing p k with
  | zero => exact h
  | succ K ih =>
    rw [Function.iterate_succ_apply, Function.iterate_succ_apply]
    refine ih ?_
    obtain ⟨h1, h2⟩ := rel_split h
    exact rel_lsub (rel_lmul h1 h1) (.cons (PolyB.zero X) (rel_lmul h2 h2))

theorem hom_apply (W : ℂ) : Hom (fun f : ℂ → ℂ => f W) :=
  ⟨rfl, fun _ _ => rfl, fun _ _ => rfl, fun _ _ => rfl⟩

/-- The functions of packed polynomials. -/
noncomputable def funs (p : List LP) : List (ℂ → ℂ) := p.map fun q W => pev W q

theorem lev_funs (W x : ℂ) (p : List LP) : lev (fun f : ℂ → ℂ => f W) x (funs p) = lev (pev W) x p := by
  induction p with
  | nil => rfl
  | cons a p ih =>
    have : funs (a :: p) = (fun W => pev W a) :: funs p := rfl
    rw [this, lev, lev, ih]

theorem rel_funs (X : ℤ) (p : List LP) : List.Forall₂ (Rel X) (funs p) (p.map fun q => encK X q) := by
  induction p with
  | nil => exact .nil
  | cons a p ih => exact .cons (PolyB.of_list X a) ih

def unpack (X : ℤ) (n : ℕ) (k : List KP) : List LP := k.map fun k => dec X n k.v

theorem lev_unpack {X : ℤ} (hX : 0 < X) {n : ℕ} {p : List (ℂ → ℂ)} {k : List KP} (h : List.Forall₂ (Rel X) p k)
    (hk : k.all (fun k => k.ok X n) = true) (W x : ℂ) :
    lev (pev W) x (unpack X n k) = lev (fun f : ℂ → ℂ => f W) x p := by
  induction h with
  | nil => rfl
  | @cons f a _ l ha _ ih =>
    simp only [List.all_cons, Bool.and_eq_true] at hk
    have e : lev (pev W) x (unpack X n (a :: l)) =
      lev (fun a : ℤ => (a : ℂ)) W (dec X n a.v) + x * lev (pev W) x (unpack X n l) := rfl
    rw [e, lev, ih hk.2, ha.decoded hX hk.1 W]

theorem length_dec (X : ℤ) (n : ℕ) (v : ℤ) : (dec X n v).length = n := by
  induction n generalizing v with
  | zero => rfl
  | succ n ih => simp [dec, ih]

/-! ## The inequality on a line -/

/-- Polynomial of `|A(W)|²`: in the variable `W` on the real line, in `W²` on the imaginary axis. -/
def sq (onReal : Bool) (A : LP) : List ℤ := if onReal then lmul (α := ℤ) A A else graeffe (α := ℤ) A

def sqSum (onReal : Bool) (T B : ℤ) : List LP → List ℤ
  | [] => []
  | A :: L => ladd ((sq onReal A).map (B ^ L.length * ·)) ((sqSum onReal T B L).map (T * ·))

def altNonneg : Bool → List ℤ → Bool
  | _, [] => true
  | b, a :: l => (if b then decide (0 ≤ a) else decide (a ≤ 0)) && altNonneg (!b) l

/-- The polynomial `B^n |A₀|² - n T (...)`. -/
def linePoly (onReal : Bool) (a b : ℤ) (A : LP) (L : List LP) : List ℤ :=
  lsub ((sq onReal A).map ((b * b) ^ L.length * ·)) ((sqSum onReal (a * a) (b * b) L).map ((L.length * (a * a)) * ·))

def sqK (onReal : Bool) (Z : ℤ) (A : LP) : KP :=
  if onReal then encK Z A * encK Z A
  else
    let q := split (α := ℤ) A
    encK Z q.1 * encK Z q.1 - ⟨Z, 1⟩ * (encK Z q.2 * encK Z q.2)

def sqSumK (onReal : Bool) (Z T B : ℤ) : List LP → KP
  | [] => 0
  | A :: L => constK (B ^ L.length) * sqK onReal Z A + constK T * sqSumK onReal Z T B L

/-- The polynomial `linePoly` has coefficients with alternating signs. -/
def lineOk (onReal : Bool) (Z : ℤ) (n : ℕ) (a b : ℤ) (A : LP) (L : List LP) : Bool :=
  let k := constK ((b * b) ^ L.length) * sqK onReal Z A -
    constK (L.length * (a * a)) * sqSumK onReal Z (a * a) (b * b) L
  k.ok Z n && altNonneg true (dec Z n k.v)

theorem lev_graeffe_split (X : ℂ) (A : List ℤ) : lev (fun a : ℤ => (a : ℂ)) X (graeffe A) =
    lev (fun a : ℤ => (a : ℂ)) X (split A).1 * lev (fun a : ℤ => (a : ℂ)) X (split A).1 -
      X * (lev (fun a : ℤ => (a : ℂ)) X (split A).2 * lev (fun a : ℤ => (a : ℂ)) X (split A).2) := by
  rw [graeffe, lev_sub hom_int, lev_mul hom_int, lev, lev_mul hom_int]
  simp

theorem sqK_spec (onReal : Bool) (Z : ℤ) (A : LP) :
    Rel Z (fun X => lev (fun a : ℤ => (a : ℂ)) X (sq onReal A)) (sqK onReal Z A) := by
  cases onReal
  · have e : (fun X : ℂ => lev (fun a : ℤ => (a : ℂ)) X (sq false A)) =
        (fun X => lev (fun a : ℤ => (a : ℂ)) X (split (α := ℤ) A).1) *
          (fun X => lev (fun a : ℤ => (a : ℂ)) X (split (α := ℤ) A).1) -
        (fun X => X) * ((fun X => lev (fun a : ℤ => (a : ℂ)) X (split (α := ℤ) A).2) *
          (fun X => lev (fun a : ℤ => (a : ℂ)) X (split (α := ℤ) A).2)) := by
      funext X
      exact lev_graeffe_split X A
    rw [e]
    exact ((PolyB.of_list Z _).mul (PolyB.of_list Z _)).sub ((PolyB.id Z).mul ((PolyB.of_list Z _).mul (PolyB.of_list Z _)))
  · have e : (fun X : ℂ => lev (fun a : ℤ => (a : ℂ)) X (sq true A)) =
        (fun X => lev (fun a : ℤ => (a : ℂ)) X (A : List ℤ)) * (fun X => lev (fun a : ℤ => (a : ℂ)) X (A : List ℤ)) := by
      funext X
      exact lev_mul hom_int X A A
    rw [e]
    exact (PolyB.of_list Z _).mul (PolyB.of_list Z _)

theorem constK_map {Z a : ℤ} {l : List ℤ} {k : KP} (h : Rel Z (fun X => lev (fun a : ℤ => (a : ℂ)) X l) k) :
    Rel Z (fun X => lev (fun a : ℤ => (a : ℂ)) X (l.map (a * ·))) (constK a * k) := by
  have e : (fun X : ℂ => lev (fun a : ℤ => (a : ℂ)) X (l.map (a * ·))) =
      (fun _ => (a : ℂ)) * fun X => lev (fun a : ℤ => (a : ℂ)) X l := by
    funext X
    rw [lev_map hom_int]
    rfl
  rw [e]
  exact (PolyB.const Z a).mul h

theorem sqSumK_spec (onReal : Bool) (Z T B : ℤ) (L : List LP) :
    Rel Z (fun X => lev (fun a : ℤ => (a : ℂ)) X (sqSum onReal T B L)) (sqSumK onReal Z T B L) := by
  induction L with
  | nil => exact PolyB.zero Z
  | cons A L ih =>
    have e : (fun X : ℂ => lev (fun a : ℤ => (a : ℂ)) X (sqSum onReal T B (A :: L))) =
        (fun X => lev (fun a : ℤ => (a : ℂ)) X ((sq onReal A).map (B ^ L.length * ·))) +
          fun X => lev (fun a : ℤ => (a : ℂ)) X ((sqSum onReal T B L).map (T * ·)) := by
      funext X
      rw [sqSum, lev_add hom_int]
      rfl
    rw [e]
    exact (constK_map (sqK_spec onReal Z A)).add (constK_map ih)

theorem lineOk_poly {onReal : Bool} {Z : ℤ} (hZ : 0 < Z) {n : ℕ} {a b : ℤ} {A : LP} {L : List LP}
    (h : lineOk onReal Z n a b A L = true) : ∃ l : List ℤ, altNonneg true l = true ∧
      ∀ X, lev (fun a : ℤ => (a : ℂ)) X l = lev (fun a : ℤ => (a : ℂ)) X (linePoly onReal a b A L) := by
  simp only [lineOk, Bool.and_eq_true] at h
  refine ⟨_, h.2, fun X => ?_⟩
  have hr : Rel Z (fun X => lev (fun a : ℤ => (a : ℂ)) X (linePoly onReal a b A L))
      (constK ((b * b) ^ L.length) * sqK onReal Z A -
        constK (L.length * (a * a)) * sqSumK onReal Z (a * a) (b * b) L) := by
    have e : (fun X : ℂ => lev (fun a : ℤ => (a : ℂ)) X (linePoly onReal a b A L)) =
        (fun X => lev (fun a : ℤ => (a : ℂ)) X ((sq onReal A).map ((b * b) ^ L.length * ·))) -
          fun X => lev (fun a : ℤ => (a : ℂ)) X ((sqSum onReal (a * a) (b * b) L).map ((L.length * (a * a)) * ·)) := by
      funext X
      rw [linePoly, lev_sub hom_int]
      rfl
    rw [e]
    exact (constK_map (sqK_spec onReal Z A)).sub (constK_map (sqSumK_spec onReal Z _ _ L))
  exact hr.decoded hZ h.1 X

theorem altNonneg_sound {x : ℝ} (hx : 0 ≤ x) {b : Bool} {l : List ℤ} (h : altNonneg b l = true) :
    0 ≤ (if b then 1 else -1) * (lev (fun a : ℤ => (a : ℂ)) (-x) l).re := by
  induction l generalizing b with
  | nil => simp [lev]
  | cons a l ih =>
    simp only [altNonneg, Bool.and_eq_true] at h
    have h2 := ih h.2
    have e : (lev (fun a : ℤ => (a : ℂ)) (-x) (a :: l)).re = a - x * (lev (fun a : ℤ => (a : ℂ)) (-x) l).re := by
      simp only [lev]
      simp
      ring
    rw [e]
    cases b
    · have h1 : (a:ℝ) ≤ 0 := by exact_mod_cast (by simpa using h.1 : a ≤ 0)
      simp only [Bool.not_false, if_true, one_mul] at h2
      simp only [Bool.false_eq_true, if_false]
      nlinarith [mul_nonneg hx h2]
    · have h1 : (0:ℝ) ≤ a := by exact_mod_cast (by simpa using h.1 : 0 ≤ a)
      simp only [Bool.not_true, Bool.false_eq_true, if_false] at h2
      simp only [if_true]
      nlinarith [mul_nonneg hx (by linarith : 0 ≤ -(lev (fun a : ℤ => (a : ℂ)) (-x) l).re)]

noncomputable def qsum (φ : LP → ℂ) (q : ℝ) : List LP → ℝ
  | [] => 0
  | A :: L => ‖φ A‖ ^ 2 + q * qsum φ q L

theorem lnorm_sq_le {φ : LP → ℂ} {t : ℝ} (L : List LP) : lnorm φ t L ^ 2 ≤ L.length * qsum φ (t ^ 2) L := by
  induction L with
  | nil => simp [lnorm, qsum]
  | cons A L ih =>
    simp only [lnorm, qsum, List.length_cons]
    push_cast
    set a := ‖φ A‖
    set s := lnorm φ t L
    set q := qsum φ (t ^ 2) L
    rcases Nat.eq_zero_or_pos L.length with h0 | h0
    · have hL : L = [] := List.length_eq_zero_iff.mp h0
      have hs : s = 0 := by simp only [s, hL, lnorm]
      have hq : q = 0 := by simp only [q, hL, qsum]
      rw [hs, hq, h0]
      simp
    · have hn : (0:ℝ) < L.length := by exact_mod_cast h0
      obtain ⟨n, hn'⟩ : ∃ n : ℝ, n = L.length := ⟨_, rfl⟩
      rw [← hn'] at hn ih ⊢
      have h1 : s ^ 2 / n ≤ q := by rw [div_le_iff₀ hn]; linarith
      have h2 : (n + 1) * (a ^ 2 + t ^ 2 * (s ^ 2 / n)) - (a + t * s) ^ 2 = (n * a - t * s) ^ 2 / n := by
        field_simp
        ring
      have h3 : 0 ≤ (n * a - t * s) ^ 2 / n := by positivity
      have h4 : (n + 1) * (a ^ 2 + t ^ 2 * (s ^ 2 / n)) ≤ (n + 1) * (a ^ 2 + t ^ 2 * q) := by
        have := mul_le_mul_of_nonneg_left h1 (sq_nonneg t)
        have : a ^ 2 + t ^ 2 * (s ^ 2 / n) ≤ a ^ 2 + t ^ 2 * q := by linarith
        exact mul_le_mul_of_nonneg_left this (by linarith)
      linarith

/-- The lines considered: the negative real line or the imaginary axis. -/
def OnLine (onReal : Bool) (W : ℂ) : Prop := if onReal then W.im = 0 ∧ W.re ≤ 0 else W.re = 0

theorem conj_pev (W : ℂ) (A : LP) : pev (starRingEnd ℂ W) A = starRingEnd ℂ (pev W A) := by
  unfold pev
  induction (A : List ℤ) with
  | nil => simp [lev]
  | cons a l ih => simp only [lev, ih, map_add, map_mul, map_intCast]

theorem sq_spec {onReal : Bool} {W : ℂ} (hW : OnLine onReal W) :
    ∃ x : ℝ, 0 ≤ x ∧ ∀ A : LP, lev (fun a : ℤ => (a : ℂ)) (-x) (sq onReal A) = ((‖pev W A‖ ^ 2 : ℝ) : ℂ) := by
  have hsq : ∀ A : LP, ((‖pev W A‖ ^ 2 : ℝ) : ℂ) = pev W A * pev (starRingEnd ℂ W) A := fun A => by
    rw [conj_pev, Complex.mul_conj, Complex.normSq_eq_norm_sq]
  cases onReal
  · simp only [OnLine, Bool.false_eq_true, if_false] at hW
    refine ⟨W.im ^ 2, sq_nonneg _, fun A => ?_⟩
    have e1 : (-((W.im ^ 2 : ℝ) : ℂ)) = W ^ 2 := by
      apply Complex.ext <;> simp [pow_two, hW]
    have e2 : starRingEnd ℂ W = -W := by
      apply Complex.ext <;> simp [hW]
    rw [hsq, e1, e2]
    exact lev_graeffe hom_int W A
  · simp only [OnLine, if_true] at hW
    refine ⟨-W.re, by linarith [hW.2], fun A => ?_⟩
    have e1 : (-((-W.re : ℝ) : ℂ)) = W := by
      apply Complex.ext <;> simp [hW.1]
    have e2 : starRingEnd ℂ W = W := by
      apply Complex.ext <;> simp [hW.1]
    rw [hsq, e1, e2]
    exact lev_mul hom_int W A A

theorem sqSum_spec {onReal : Bool} {W X : ℂ}
    (hX : ∀ A : LP, lev (fun a : ℤ => (a : ℂ)) X (sq onReal A) = ((‖pev W A‖ ^ 2 : ℝ) : ℂ)) {T B : ℤ} (hB : B ≠ 0)
    (L : List LP) : (B : ℂ) * lev (fun a : ℤ => (a : ℂ)) X (sqSum onReal T B L) =
      (((B : ℝ) ^ L.length * qsum (pev W) (T / B) L : ℝ) : ℂ) := by
  induction L with
  | nil => simp [sqSum, lev, qsum]
  | cons A L ih =>
    have hB' : (B : ℂ) ≠ 0 := by exact_mod_cast hB
    simp only [sqSum, qsum, List.length_cons, pow_succ]
    rw [lev_add hom_int, lev_map hom_int, lev_map hom_int, hX, mul_add]
    have : (B : ℂ) * ((T : ℂ) * lev (fun a : ℤ => (a : ℂ)) X (sqSum onReal T B L)) =
        T * (B * lev (fun a : ℤ => (a : ℂ)) X (sqSum onReal T B L)) := by ring
    rw [this, ih]
    push_cast
    field_simp

theorem lineOk_sound {onReal : Bool} {Z : ℤ} (hZ : 0 < Z) {n : ℕ} {a b : ℤ} (ha : 0 < a) (hb : 0 < b) {A : LP}
    {L : List LP} (h : lineOk onReal Z n a b A L = true) {W : ℂ} (hW : OnLine onReal W) :
    (a / b : ℝ) * lnorm (pev W) (a / b) L ≤ ‖pev W A‖ := by
  obtain ⟨x, hx, hX⟩ := sq_spec hW
  obtain ⟨l, hl, hlp⟩ := lineOk_poly hZ h
  have h1 := altNonneg_sound hx hl
  simp only [if_true, one_mul] at h1
  rw [hlp, linePoly, lev_sub hom_int, lev_map hom_int, lev_map hom_int, hX] at h1
  have haR : (0:ℝ) < a := by exact_mod_cast ha
  have hbR : (0:ℝ) < b := by exact_mod_cast hb
  have h2 := sqSum_spec hX (T := a * a) (B := b * b) (mul_ne_zero hb.ne' hb.ne') L
  set Z := lev (fun a : ℤ => (a : ℂ)) (-x) (sqSum onReal (a * a) (b * b) L) with hZ
  have h3 : Z = (((b * b : ℝ) ^ L.length * qsum (pev W) ((a * a) / (b * b)) L / (b * b) : ℝ) : ℂ) := by
    have hbb : ((b * b : ℤ) : ℂ) ≠ 0 := by exact_mod_cast mul_ne_zero hb.ne' hb.ne'
    push_cast at h2 hbb ⊢
    rw [eq_div_iff hbb, mul_comm, h2]
  rw [h3] at h1
  have e : ((((b * b) ^ L.length : ℤ) : ℂ) * ((‖pev W A‖ ^ 2 : ℝ) : ℂ) - ((L.length * (a * a) : ℤ) : ℂ) *
      (((b * b : ℝ) ^ L.length * qsum (pev W) ((a * a) / (b * b)) L / (b * b) : ℝ) : ℂ)) =
      ((((b * b : ℝ) ^ L.length) * (‖pev W A‖ ^ 2 - L.length * ((a * a) / (b * b) *
        qsum (pev W) ((a * a) / (b * b)) L)) : ℝ) : ℂ) := by
    push_cast
    field_simp
  rw [e, Complex.ofReal_re] at h1
  have h4 : 0 ≤ ‖pev W A‖ ^ 2 - L.length * ((a * a) / (b * b) * qsum (pev W) ((a * a) / (b * b)) L) :=
    nonneg_of_mul_nonneg_right h1 (by positivity)
  have h5 := lnorm_sq_le (φ := pev W) (t := (a / b : ℝ)) L
  have e2 : ((a:ℝ) / b) ^ 2 = (a * a) / (b * b) := by field_simp
  rw [e2] at h5
  refine abs_le_of_sq_le_sq' ?_ (norm_nonneg _) |>.2
  rw [mul_pow, e2]
  have : (0:ℝ) ≤ (a * a) / (b * b) := by positivity
  nlinarith [mul_le_mul_of_nonneg_left h5 this]

/-! ## From the imaginary axis to the half-plane -/

noncomputable def comb (u : LP → ℂ) (t : ℝ) : List LP → ℂ[X]
  | [] => 0
  | A :: L => C (u A) * toPoly (fun a : ℤ => (a : ℂ)) A + C (t : ℂ) * comb u t L

theorem natDegree_comb (u : LP → ℂ) (t : ℝ) {n : ℕ} {L : List LP} (h : ∀ A ∈ L, A.len ≤ n + 1) :
    (comb u t L).natDegree ≤ n := by
  induction L with
  | nil => simp [comb]
  | cons A L ih =>
    rw [comb]
    refine (natDegree_add_le _ _).trans (max_le ?_ ?_)
    · refine (natDegree_C_mul_le _ _).trans ((natDegree_toPoly _).trans ?_)
      have := h A List.mem_cons_self
      change List.length A ≤ n + 1 at this
      omega
    · exact (natDegree_C_mul_le _ _).trans (ih fun B hB => h B (List.mem_cons_of_mem _ hB))

theorem eval_comb (u : LP → ℂ) (t : ℝ) (W : ℂ) (A : LP) (L : List LP) :
    (comb u t (A :: L)).eval W = u A * pev W A + t * (comb u t L).eval W := by
  rw [comb, eval_add, eval_mul, eval_C, eval_mul, eval_C]
  congr 2
  exact eval_toPoly W (A : List ℤ)

theorem lnorm_half_plane {A : LP} {L : List LP} {n : ℕ} (hL : ∀ B ∈ L, B.len ≤ n + 1) {t : ℝ} (ht : 0 ≤ t)
    (hA : Differentiable ℂ fun W => pev W A) {δ : ℝ} (hδ : 0 < δ) (hAδ : ∀ W : ℂ, W.re ≤ 0 → δ ≤ ‖pev W A‖)
    (hAn : ∀ W : ℂ, W.re ≤ 0 → ‖W‖ ^ n ≤ ‖pev W A‖)
    (h : ∀ W : ℂ, W.re = 0 → t * lnorm (pev W) t L ≤ ‖pev W A‖) {W : ℂ} (hW : W.re ≤ 0) :
    t * lnorm (pev W) t L ≤ ‖pev W A‖ := by
  classical
  set u : LP → ℂ := fun B => if pev W B = 0 then 0 else (‖pev W B‖ : ℂ) / pev W B with hu
  have hu1 : ∀ B, ‖u B‖ ≤ 1 := by
    intro B
    rw [hu]
    dsimp only
    split_ifs with h0
    · simp
    · rw [norm_div, Complex.norm_real, norm_norm, div_self (norm_ne_zero_iff.mpr h0)]
  have hu2 : ∀ B, u B * pev W B = ‖pev W B‖ := by
    intro B
    rw [hu]
    dsimp only
    split_ifs with h0
    · simp [h0]
    · rw [div_mul_cancel₀ _ h0]
  have e1 : ∀ L : List LP, (comb u t L).eval W = (lnorm (pev W) t L : ℝ) := by
    intro L
    induction L with
    | nil => simp [comb, lnorm]
    | cons B L ih =>
      rw [eval_comb, hu2, ih, lnorm]
      push_cast
      rfl
  have e2 : ∀ (Z : ℂ) (L : List LP), ‖(comb u t L).eval Z‖ ≤ lnorm (pev Z) t L := by
    intro Z L
    induction L with
    | nil => simp [comb, lnorm]
    | cons B L ih =>
      rw [eval_comb, lnorm]
      refine (norm_add_le _ _).trans (add_le_add ?_ ?_)
      · rw [norm_mul]
        calc _ ≤ 1 * ‖pev Z B‖ := mul_le_mul_of_nonneg_right (hu1 B) (norm_nonneg _)
          _ = _ := one_mul _
      · rw [norm_mul, Complex.norm_real, Real.norm_of_nonneg ht]
        exact mul_le_mul_of_nonneg_left ih ht
  have key := left_half_plane (P := C (t : ℂ) * comb u t L) hA
    ((natDegree_C_mul_le _ _).trans (natDegree_comb u t hL)) hδ hAδ hAn (fun y => by
      refine le_trans ?_ (h (y * I) (by simp))
      rw [eval_mul, eval_C, norm_mul, Complex.norm_real, Real.norm_of_nonneg ht]
      exact mul_le_mul_of_nonneg_left (e2 _ L) ht) hW
  rw [eval_mul, eval_C, e1, norm_mul, Complex.norm_real, Complex.norm_real, Real.norm_of_nonneg ht,
    Real.norm_of_nonneg (lnorm_nonneg ht L)] at key
  exact key

/-! ## Products of distances -/

theorem dist_ge {W : ℂ} (hW : W.re ≤ 0) {d : ℤ} (hd : 0 ≤ d) : ‖W‖ ≤ ‖W - d‖ ∧ (d:ℝ) ≤ ‖W - d‖ := by
  have hdR : (0:ℝ) ≤ d := by exact_mod_cast hd
  constructor
  · rw [← sq_le_sq₀ (norm_nonneg _) (norm_nonneg _), ← Complex.normSq_eq_norm_sq, ← Complex.normSq_eq_norm_sq,
      Complex.normSq_apply, Complex.normSq_apply]
    simp only [Complex.sub_re, Complex.sub_im, Complex.intCast_re, Complex.intCast_im, sub_zero]
    nlinarith
  · have := Complex.abs_re_le_norm (W - d)
    simp only [Complex.sub_re, Complex.intCast_re] at this
    have h2 := neg_le_abs (W.re - d)
    linarith

theorem prod_ge {W : ℂ} (hW : W.re ≤ 0) {m : ℤ} (hm : 0 < m) {l : List ℤ} (hl : ∀ d ∈ l, m ≤ d) {j : ℕ}
    (hj : j ≤ l.length) : ‖W‖ ^ j * (m:ℝ) ^ (l.length - j) ≤ ‖pev W (prodPoly l)‖ := by
  have hmR : (0:ℝ) < m := by exact_mod_cast hm
  rw [pev_prodPoly]
  induction l generalizing j with
  | nil =>
    have : j = 0 := by simpa using hj
    subst this
    simp
  | cons d l ih =>
    have hd := hl d List.mem_cons_self
    have ih' := fun {j} => ih (fun e he => hl e (List.mem_cons_of_mem _ he)) (j := j)
    obtain ⟨h1, h2⟩ := dist_ge hW (hm.le.trans hd)
    have hdm : (m:ℝ) ≤ d := by exact_mod_cast hd
    rw [List.map_cons, List.prod_cons, norm_mul, List.length_cons]
    rcases Nat.lt_or_ge j (l.length + 1) with hlt | hge
    · have := ih' (j := j) (by omega)
      have e : l.length + 1 - j = l.length - j + 1 := by omega
      rw [e, pow_succ]
      calc _ = (m:ℝ) * (‖W‖ ^ j * (m:ℝ) ^ (l.length - j)) := by ring
        _ ≤ _ := mul_le_mul (hdm.trans h2) this (by positivity) (norm_nonneg _)
    · have hje : j = l.length + 1 := le_antisymm (by simpa using hj) hge
      have := ih' (j := l.length) le_rfl
      rw [hje, Nat.sub_self, pow_zero, mul_one, pow_succ]
      rw [Nat.sub_self, pow_zero, mul_one] at this
      calc _ = ‖W‖ * ‖W‖ ^ l.length := by ring
        _ ≤ _ := mul_le_mul h1 this (by positivity) (norm_nonneg _)

def bq (m : ℤ) : List ℤ → ℚ
  | [] => 0
  | b :: bs => (b + bq m bs) / m

theorem bsum_le {w Q : ℝ} {m : ℤ} (hm : 0 < m) {n : ℕ} (hQ : ∀ j ≤ n, w ^ j * (m:ℝ) ^ (n - j) ≤ Q) {bs : List ℤ}
    (hb : ∀ b ∈ bs, 0 ≤ b) (hn : bs.length ≤ n) : bsum w bs * (m:ℝ) ^ (n - bs.length) ≤ Q * (bq m bs : ℚ) := by
  have hmR : (0:ℝ) < m := by exact_mod_cast hm
  induction bs with
  | nil => simp [bsum, bq]
  | cons b bs ih =>
    have h1 := ih (fun c hc => hb c (List.mem_cons_of_mem _ hc)) (by simp at hn; omega)
    have hb0 : (0:ℝ) ≤ b := by exact_mod_cast hb b List.mem_cons_self
    have h2 := hQ bs.length (by simp at hn; omega)
    rw [bsum, bq, List.length_cons]
    have e : n - bs.length = n - (bs.length + 1) + 1 := by simp at hn; omega
    rw [e, pow_succ] at h1 h2
    push_cast
    rw [mul_div_assoc', le_div_iff₀ hmR]
    have h3 := mul_le_mul_of_nonneg_left h2 hb0
    calc _ = b * (w ^ bs.length * ((m:ℝ) ^ (n - (bs.length + 1)) * m)) +
          bsum w bs * ((m:ℝ) ^ (n - (bs.length + 1)) * m) := by ring
      _ ≤ b * Q + Q * (bq m bs : ℚ) := add_le_add h3 h1
      _ = _ := by ring

theorem differentiable_prod (l : List ℤ) : Differentiable ℂ fun W : ℂ => (l.map fun d : ℤ => W - d).prod := by
  induction l with
  | nil => simp
  | cons d l ih =>
    simp only [List.map_cons, List.prod_cons]
    exact (differentiable_id.sub_const _).mul ih

/-! ## The check -/

instance : DecidableEq LP := inferInstanceAs (DecidableEq (List ℤ))

def maxAbs : List ℤ → ℤ
  | [] => 0
  | a :: l => max |a| (maxAbs l)

theorem maxAbs_ge (l : List ℤ) (i : ℕ) : |l.getD i 0| ≤ maxAbs l := by
  induction l generalizing i with
  | nil => simp [maxAbs]
  | cons a l ih =>
    cases i with
    | zero => exact le_max_left _ _
    | succ i => exact (ih i).trans (le_max_right _ _)

/-- For `W` in the closed left half-plane (on the negative real line) and `|ν| ≤ 1` no eigenvalue of `D - ν T` is `W`,
for every matrix `T` with distance at most `ε` of `E`: the coefficients of the characteristic polynomial after `K` steps
of Graeffe's method. `Y`, `X` and `Z` are bases for packed polynomials. -/
def halfOk (onReal : Bool) (M : ℕ) (ds : List ℤ) (E : List (List ℤ)) (ε m : ℤ) (K : ℕ) (a b : ℤ) (r : ℚ) (Y X Z : ℤ) :
    Bool :=
  decide (ds.length = M ∧ 0 < m ∧ (∀ d ∈ ds, m ≤ d) ∧ 0 < a ∧ 0 < b ∧ 0 < r ∧ r < 1 ∧ (b : ℚ) ≤ r ^ 2 ^ K * a ∧
    0 < Y ∧ 0 < X ∧ 0 < Z) && shape M E &&
  match flv M Y (pencil M Y ds E) (maxAbs ds + nrm E) M 1 (addOne M [] (enc Y [1])) (0 + rowSum [1]) with
  | none => false
  | some (cs, bs) =>
    decide (∀ c ∈ cs, c.length ≤ M + 1) &&
    (let p := conv (M + 1) ([1] :: cs)
    (match p with
    | [] => false
    | q :: _ => decide (q = prodPoly ds)) &&
    (let k := graeffe^[K] (p.map fun q => encK X q)
    k.all (fun k => k.ok X (M * 2 ^ K + 1)) &&
    match unpack X (M * 2 ^ K + 1) k with
    | [] => false
    | A :: L => lineOk onReal Z (2 * (M * 2 ^ K) + 1) a b A L)) &&
    decide ((ε : ℚ) * bq m bs < (1 - r) ^ M)

/-- The half-plane or half-line of a check. -/
def InRegion (onReal : Bool) (W : ℂ) : Prop := W.re ≤ 0 ∧ (onReal = true → W.im = 0)

theorem halfOk_sound {onReal : Bool} {ds : List ℤ} {E : List (List ℤ)} {ε m : ℤ} {K : ℕ} {a b : ℤ} {r : ℚ} {Y X Z : ℤ}
    (h : halfOk onReal M ds E ε m K a b r Y X Z = true) {T : Matrix (Fin M) (Fin M) ℝ} (hT : ‖T - mat M E‖ ≤ ε) {W ν : ℂ}
    (hW : InRegion onReal W) (hν : ‖ν‖ ≤ 1) {v : Fin M → ℂ}
    (hv : W • v = cmat (diagonal fun i : Fin M => ((ds.getD i 0 : ℤ) : ℝ)) *ᵥ v - ν • (cmat T *ᵥ v)) : v = 0 := by
  by_contra hv0
  simp only [halfOk, Bool.and_eq_true, decide_eq_true_eq] at h
  obtain ⟨⟨⟨hl, hm, hds, ha, hb, hr0, hr1, hrK, hY, hX, hZ⟩, hE⟩, h⟩ := h
  split at h
  · cases h
  rename_i cs bs hflv
  simp only [Bool.and_eq_true, decide_eq_true_eq] at h
  obtain ⟨⟨hcs, hhead, hoks, hline⟩, hfin⟩ := h
  have hzero : MatB (M := M) Y (fun _ => 0) [] 0 := fun i => ⟨0, fun j => by simp only [ent, List.getD_nil]; exact PolyB.zero Y, by simp⟩
  have hmax : 0 ≤ maxAbs ds + nrm E := by
    refine add_nonneg ?_ (nrm_nonneg E)
    exact (abs_nonneg _).trans (maxAbs_ge ds 0)
  obtain ⟨hcl, hbl, hb0, B, hB, hBn⟩ := flv_sound hY (shape_pencil Y ds E) hmax
    (MatB.pencil hE fun i => maxAbs_ge ds i) W hν (shape_addOne _ _) (by simp [rowSum]) (hzero.addOne [1]) hflv
  have hcs' : ∀ c ∈ [1] :: cs, c.length ≤ M + 1 := by
    intro c hc
    rcases List.mem_cons.mp hc with rfl | hc
    · simp
    · exact hcs c hc
  set p := conv (M + 1) ([1] :: cs) with hp
  have hspec := fun (W ν : ℂ) => conv_spec W ν hcs'
  rw [← hp] at hspec
  clear_value p
  have haR : (0:ℝ) < a := by exact_mod_cast ha
  have hbR : (0:ℝ) < b := by exact_mod_cast hb
  have hmR : (0:ℝ) < m := by exact_mod_cast hm
  -- the first coefficient
  have hp0 : ∀ W, lev (pev W) 0 p = pev W (prodPoly ds) := by
    intro W
    cases p with
    | nil => cases hhead
    | cons q l => rw [lev, zero_mul, add_zero, of_decide_eq_true hhead]
  have hQ : ∀ {W : ℂ}, W.re ≤ 0 → ∀ {j}, j ≤ M → ‖W‖ ^ j * (m:ℝ) ^ (M - j) ≤ ‖pev W (prodPoly ds)‖ := by
    intro W hW j hj
    have := prod_ge hW hm hds (j := j) (by rw [hl]; exact hj)
    rwa [hl] at this
  have hpos : ∀ {W : ℂ}, W.re ≤ 0 → (m:ℝ) ^ M ≤ ‖pev W (prodPoly ds)‖ := by
    intro W hW
    simpa using hQ hW (Nat.zero_le M)
  -- roots
  have hroot : ∀ x, lev (pev W) x p = 0 → ((r:ℝ))⁻¹ ≤ ‖x‖ := by
    intro x hx
    have hun := lev_unpack hX (rel_graeffe (rel_funs X p) K) hoks
    have h1 := lev_graeffe_iterate (hom_apply W) x (p := funs p) (by rw [lev_funs, hx]) K
    rw [← hun] at h1
    split at hline
    · cases hline
    rename_i A L heq
    have hlo := hline
    have hlen : ∀ B ∈ L, B.len ≤ M * 2 ^ K + 1 := by
      intro B hB
      have : B ∈ unpack X (M * 2 ^ K + 1) (graeffe^[K] (p.map fun q => encK X q)) := by
        rw [heq]; exact List.mem_cons_of_mem _ hB
      obtain ⟨k, -, rfl⟩ := List.mem_map.mp this
      exact (length_dec X _ k.v).le
    have hA : ∀ W, pev W A = pev W (prodPoly ds) ^ 2 ^ K := by
      intro W
      have := lev_graeffe_zero (hom_apply W) (funs p) K
      rw [← hun, heq, lev, zero_mul, add_zero, lev_funs, hp0] at this
      exact this
    have hA0 : pev W A ≠ 0 := by
      rw [hA]
      exact pow_ne_zero _ (norm_pos_iff.mp ((pow_pos hmR M).trans_le (hpos hW.1)))
    have hdom : (a / b : ℝ) * lnorm (pev W) (a / b) L ≤ ‖pev W A‖ := by
      cases hR : onReal with
      | true =>
        rw [hR] at hlo
        exact lineOk_sound hZ ha hb hlo (by simp only [OnLine, if_true]; exact ⟨hW.2 hR, hW.1⟩)
      | false =>
        rw [hR] at hlo
        refine lnorm_half_plane hlen (by positivity) ?_ (pow_pos (pow_pos hmR M) (2 ^ K)) ?_ ?_ ?_ hW.1
        · simp only [hA, pev_prodPoly]
          exact (differentiable_prod ds).pow _
        · intro W hW
          rw [hA, norm_pow]
          exact pow_le_pow_left₀ (by positivity) (hpos hW) _
        · intro W hW
          rw [hA, norm_pow, pow_mul]
          have := hQ hW le_rfl
          rw [Nat.sub_self, pow_zero, mul_one] at this
          exact pow_le_pow_left₀ (by positivity) this _
        · intro W hW
          exact lineOk_sound hZ ha hb hlo (by simpa [OnLine] using hW)
    rw [heq] at h1
    have h2 := root_large hA0 hdom h1
    rw [norm_pow] at h2
    have hr0R : (0:ℝ) < r := by exact_mod_cast hr0
    have h3 : ((r:ℝ)⁻¹) ^ 2 ^ K ≤ ‖x‖ ^ 2 ^ K := by
      refine le_trans ?_ h2
      rw [inv_pow, inv_le_iff_one_le_mul₀ (by positivity), div_mul_eq_mul_div, one_le_div hbR, mul_comm]
      exact_mod_cast hrK
    exact le_of_pow_le_pow_left₀ (pow_ne_zero _ two_ne_zero) (norm_nonneg _) h3
  -- the characteristic polynomial is not small
  have hge := norm_lev_ge (φ := pev W) (n := M) (hspec W ν).1.le
    (by rw [hp0]; exact norm_pos_iff.mp ((pow_pos hmR M).trans_le (hpos hW.1))) (by exact_mod_cast hr0)
    (by exact_mod_cast hr1.le) hroot hν
  rw [hp0, (hspec W ν).2.2] at hge
  -- the vector
  have hB' : B * (W • 1 - (cmat (diagonal fun i : Fin M => ((ds.getD i 0 : ℤ) : ℝ)) - ν • cmat (mat M E))) =
      chi W ν ([1] :: cs) • 1 := by
    rw [hB, chi, hcl]
    simp only [lev]
    module
  have hBv : chi W ν ([1] :: cs) • v = B *ᵥ (ν • (cmat (mat M E - T) *ᵥ v)) := by
    have h1 := congrArg (fun A : Matrix (Fin M) (Fin M) ℂ => A *ᵥ v) hB'
    rw [← mulVec_mulVec] at h1
    rw [smul_mulVec, one_mulVec] at h1
    rw [← h1]
    congr 1
    rw [sub_mulVec, sub_mulVec, smul_mulVec, one_mulVec, smul_mulVec, hv, cmat_sub, sub_mulVec, smul_sub]
    abel
  have hvn : 0 < ‖v‖ := norm_pos_iff.mpr hv0
  have h1 : ‖chi W ν ([1] :: cs)‖ * ‖v‖ ≤ bsum ‖W‖ bs * (ε * ‖v‖) := by
    rw [← norm_smul, hBv]
    refine (linfty_opNorm_mulVec _ _).trans (mul_le_mul hBn ?_ (norm_nonneg _) ((norm_nonneg _).trans hBn))
    rw [norm_smul]
    have h2 : ‖cmat (mat M E - T) *ᵥ v‖ ≤ ε * ‖v‖ := by
      refine (linfty_opNorm_mulVec _ _).trans (mul_le_mul_of_nonneg_right ?_ (norm_nonneg _))
      rw [norm_cmat, norm_sub_rev]
      exact hT
    calc _ ≤ 1 * ‖cmat (mat M E - T) *ᵥ v‖ := mul_le_mul_of_nonneg_right hν (norm_nonneg _)
      _ ≤ _ := by rw [one_mul]; exact h2
  have h2 := bsum_le hm (fun j hj => hQ hW.1 hj) hb0 hbl.le
  rw [hbl, Nat.sub_self, pow_zero, mul_one] at h2
  have hε : (0:ℝ) ≤ ε := (norm_nonneg _).trans hT
  have hfin' : (ε:ℝ) * (bq m bs : ℚ) < (1 - r) ^ M := by exact_mod_cast hfin
  have hP0 : 0 < ‖pev W (prodPoly ds)‖ := (pow_pos hmR M).trans_le (hpos hW.1)
  have h3 : ‖chi W ν ([1] :: cs)‖ ≤ bsum ‖W‖ bs * ε := by
    refine le_of_mul_le_mul_right ?_ hvn
    rw [mul_assoc]; exact h1
  have h4 : bsum ‖W‖ bs * ε ≤ ‖pev W (prodPoly ds)‖ * (ε * (bq m bs : ℚ)) := by
    calc _ ≤ ‖pev W (prodPoly ds)‖ * (bq m bs : ℚ) * ε := mul_le_mul_of_nonneg_right h2 hε
      _ = _ := by ring
  have h5 : ‖pev W (prodPoly ds)‖ * (ε * (bq m bs : ℚ)) < ‖pev W (prodPoly ds)‖ * (1 - r) ^ M :=
    mul_lt_mul_of_pos_left hfin' hP0
  linarith


end QMat.HalfPlane
