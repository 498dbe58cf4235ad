import Verif.Lemmas.Enclosure
import Verif.Lemmas.SDCRat
import Verif.Props.LeapFrog
import Verif.Props.Trees

/-!
# Collocation and SDC in a computable arithmetic

The computations of `SDCRat`, for the enclosures of `Enclosure`.
-/

namespace QMat

open Matrix Polynomial Spec

namespace SDCArith

variable {α : Type}

/-! ## Vectors and matrices -/

/-- A list that represents a vector. -/
def VRel (rel : α → ℝ → Prop) (M : ℕ) (l : List α) (v : Fin M → ℝ) : Prop :=
  l.length = M ∧ ∀ (i : Fin M) a, l[(i:ℕ)]? = some a → rel a (v i)

/-- A list of rows that represents a matrix. -/
def MRel (rel : α → ℝ → Prop) (M : ℕ) (l : List (List α)) (B : Matrix (Fin M) (Fin M) ℝ) : Prop :=
  l.length = M ∧ ∀ (i : Fin M) r, l[(i:ℕ)]? = some r → VRel rel M r (B i)

def dot (A : Arith α) : List α → List α → α
  | a :: x, b :: y => A.add (A.mul a b) (dot A x y)
  | _, _ => A.ofRat 0

def mv (A : Arith α) (B : List (List α)) (v : List α) : List α := B.map fun r => dot A r v

def vadd (A : Arith α) (x y : List α) : List α := List.zipWith A.add x y

/-- Coefficient vectors of the next iterate from the ones of the last. -/
def sweep (A : Arith α) (D R : List (List α)) (cur : List α) : List (List α) → List (List α)
  | [] => [cur]
  | p :: ps => cur :: sweep A D R (vadd A (mv A D cur) (mv A R p)) ps

/-- Coefficient vectors `0..J` before the first sweep. -/
def start (A : Arith α) (M J : ℕ) : List (List α) :=
  List.replicate M (A.ofRat 1) :: List.replicate J (List.replicate M (A.ofRat 0))

def next (A : Arith α) (D R : List (List α)) (M J : ℕ) (T : List (List α)) : List (List α) :=
  sweep A D R (List.replicate M (A.ofRat 1)) (T.take J)

/-- The test `chk` holds of the coefficients after `k`, `k + 1`, …, `k + n` sweeps. -/
def run (A : Arith α) (D R : List (List α)) (M J : ℕ) (chk : ℕ → List (List α) → Bool) :
    ℕ → ℕ → List (List α) → Bool
  | 0, k, T => chk k T
  | n + 1, k, T => chk k T && run A D R M J chk n (k + 1) (next A D R M J T)

section Sound

variable {A : Arith α} {rel : α → ℝ → Prop} (hA : A.Sound rel)
include hA

theorem dot_rel {M : ℕ} {x y : List α} {v w : Fin M → ℝ} (hx : VRel rel M x v) (hy : VRel rel M y w) :
    rel (dot A x y) (v ⬝ᵥ w) := by
  induction M generalizing x y with
  | zero =>
    obtain rfl : x = [] := List.eq_nil_of_length_eq_zero hx.1
    have := hA.ofRat 0
    simpa [dot, dotProduct] using this
  | succ M ih =>
    obtain ⟨a, x, rfl⟩ : ∃ a l, x = a :: l := List.exists_cons_of_length_eq_add_one hx.1
    obtain ⟨b, y, rfl⟩ : ∃ a l, y = a :: l := List.exists_cons_of_length_eq_add_one hy.1
    simp only [dot, dotProduct, Fin.sum_univ_succ]
    refine hA.add (hA.mul (hx.2 0 a (by simp)) (hy.2 0 b (by simp)))
      (ih (v := fun i => v i.succ) (w := fun i => w i.succ) ⟨?_, fun i c h => hx.2 i.succ c (by simpa using h)⟩
        ⟨?_, fun i c h => hy.2 i.succ c (by simpa using h)⟩)
    · simpa using hx.1
    · simpa using hy.1

theorem mv_rel {M : ℕ} {B : List (List α)} {C : Matrix (Fin M) (Fin M) ℝ} {x : List α} {v : Fin M → ℝ}
    (hB : MRel rel M B C) (hx : VRel rel M x v) : VRel rel M (mv A B x) (C *ᵥ v) := by
  refine ⟨by simp [mv, hB.1], fun i a h => ?_⟩
  simp only [mv, List.getElem?_map, Option.map_eq_some_iff] at h
  obtain ⟨r, hr, rfl⟩ := h
  exact dot_rel hA (hB.2 i r hr) hx

theorem vadd_rel {M : ℕ} {x y : List α} {v w : Fin M → ℝ} (hx : VRel rel M x v) (hy : VRel rel M y w) :
    VRel rel M (vadd A x y) (v + w) := by
  refine ⟨by simp [vadd, hx.1, hy.1], fun i a h => ?_⟩
  simp only [vadd, List.getElem?_zipWith_eq_some] at h
  obtain ⟨b, c, hb, hc, rfl⟩ := h
  exact hA.add (hx.2 i b hb) (hy.2 i c hc)

theorem replicate_rel (M : ℕ) (q : ℚ) : VRel rel M (List.replicate M (A.ofRat q)) fun _ => (q:ℝ) := by
  refine ⟨by simp, fun i a h => ?_⟩
  simp only [List.getElem?_replicate] at h
  split_ifs at h
  obtain rfl := Option.some.inj h
  exact hA.ofRat q

/-- A list of coefficient vectors. -/
def TRel (rel : α → ℝ → Prop) (M J : ℕ) (T : List (List α)) (c : ℕ → Fin M → ℝ) : Prop :=
  T.length = J + 1 ∧ ∀ (j : ℕ) l, T[j]? = some l → VRel rel M l (c j)

theorem sweep_rel {M : ℕ} {D R : List (List α)} {D' R' : Matrix (Fin M) (Fin M) ℝ} (hD : MRel rel M D D')
    (hR : MRel rel M R R') (c c' : ℕ → Fin M → ℝ) (hc : ∀ j, c' (j + 1) = D' *ᵥ c' j + R' *ᵥ c j)
    (ps : List (List α)) (cur : List α) (m : ℕ) (hcur : VRel rel M cur (c' m))
    (hps : ∀ j l, ps[j]? = some l → VRel rel M l (c (m + j))) :
    (sweep A D R cur ps).length = ps.length + 1 ∧
    ∀ j l, (sweep A D R cur ps)[j]? = some l → VRel rel M l (c' (m + j)) := by
  induction ps generalizing cur m with
  | nil =>
    refine ⟨rfl, fun j l h => ?_⟩
    cases j with
    | zero =>
      simp only [sweep, List.getElem?_cons_zero, Option.some.injEq] at h
      subst h
      simpa using hcur
    | succ j => simp [sweep] at h
  | cons p ps ih =>
    have h1 := ih (vadd A (mv A D cur) (mv A R p)) (m + 1) (by
      rw [hc]
      exact vadd_rel hA (mv_rel hA hD hcur) (mv_rel hA hR (hps 0 p rfl)))
      (fun j l h => by
        have := hps (j + 1) l (by simpa using h)
        rwa [show m + (j + 1) = m + 1 + j by omega] at this)
    refine ⟨by simp [sweep, h1.1], fun j l h => ?_⟩
    cases j with
    | zero =>
      simp only [sweep, List.getElem?_cons_zero, Option.some.injEq] at h
      subst h
      simpa using hcur
    | succ j =>
      have := h1.2 j l (by simpa [sweep] using h)
      rwa [show m + (j + 1) = m + 1 + j by omega]

theorem start_rel (M J : ℕ) (Q : Matrix (Fin M) (Fin M) ℝ) (f : ℕ → Matrix (Fin M) (Fin M) ℝ) :
    TRel rel M J (start A M J) (sdcTaylor Q f 0) := by
  refine ⟨by simp [start], fun j l h => ?_⟩
  cases j with
  | zero =>
    simp only [start, List.getElem?_cons_zero, Option.some.injEq] at h
    subst h
    simpa [sdcTaylor] using replicate_rel hA M 1
  | succ j =>
    simp only [start, List.getElem?_cons_succ, List.getElem?_replicate] at h
    split_ifs at h
    obtain rfl := Option.some.inj h
    simpa [sdcTaylor] using replicate_rel hA M 0

theorem next_rel {M J : ℕ} {D R : List (List α)} {Q D' : Matrix (Fin M) (Fin M) ℝ} (hD : MRel rel M D D')
    (hR : MRel rel M R (Q - D')) {k : ℕ} {T : List (List α)}
    (hT : TRel rel M J T (sdcTaylor Q (fun _ => D') k)) :
    TRel rel M J (next A D R M J T) (sdcTaylor Q (fun _ => D') (k + 1)) := by
  have h := sweep_rel hA hD hR (sdcTaylor Q (fun _ => D') k) (sdcTaylor Q (fun _ => D') (k + 1))
    (fun j => by simp only [sdcTaylor]) (T.take J) (List.replicate M (A.ofRat 1)) 0
    (by simpa [sdcTaylor] using replicate_rel hA M 1)
    (fun j l h => by
      rw [List.getElem?_take] at h
      split_ifs at h
      rw [zero_add]
      exact hT.2 j l h)
  refine ⟨?_, fun j l hl => ?_⟩
  · rw [next, h.1, List.length_take, hT.1]
    omega
  · have := h.2 j l hl
    rwa [zero_add] at this

theorem run_sound {M J : ℕ} {D R : List (List α)} {Q D' : Matrix (Fin M) (Fin M) ℝ} (hD : MRel rel M D D')
    (hR : MRel rel M R (Q - D')) {chk : ℕ → List (List α) → Bool} {n k : ℕ} {T : List (List α)}
    (hT : TRel rel M J T (sdcTaylor Q (fun _ => D') k)) (h : run A D R M J chk n k T = true) :
    ∀ i ≤ n, ∃ T', TRel rel M J T' (sdcTaylor Q (fun _ => D') (k + i)) ∧ chk (k + i) T' = true := by
  induction n generalizing k T with
  | zero =>
    intro i hi
    obtain rfl : i = 0 := by omega
    exact ⟨T, hT, h⟩
  | succ n ih =>
    simp only [run, Bool.and_eq_true] at h
    intro i hi
    cases i with
    | zero => exact ⟨T, hT, h.1⟩
    | succ i =>
      obtain ⟨T', h1, h2⟩ := ih (next_rel hA hD hR hT) h.2 i (by omega)
      rw [show k + 1 + i = k + (i + 1) by omega] at h1 h2
      exact ⟨T', h1, h2⟩

/-! ## Matrices given by their entries -/

omit hA in
theorem build_rel {M : ℕ} {f : ℕ → ℕ → α} {B : Matrix (Fin M) (Fin M) ℝ}
    (h : ∀ i j : Fin M, rel (f i j) (B i j)) :
    MRel rel M ((List.range M).map fun i => (List.range M).map fun j => f i j) B := by
  refine ⟨by simp, fun i r hr => ⟨?_, fun j a ha => ?_⟩⟩
  all_goals
    simp only [List.getElem?_map, Option.map_eq_some_iff] at hr
    obtain ⟨i', hi', rfl⟩ := hr
  · simp
  · rw [List.getElem?_range i.2] at hi'
    obtain rfl := Option.some.inj hi'
    simp only [List.getElem?_map, Option.map_eq_some_iff] at ha
    obtain ⟨j', hj', rfl⟩ := ha
    rw [List.getElem?_range j.2] at hj'
    obtain rfl := Option.some.inj hj'
    exact h i j

end Sound

/-! ## Collocation -/

/-- `p * (X - a)` on coefficients. -/
def mulLin (A : Arith α) (p : List α) (a : α) : List α :=
  List.zipWith A.sub (A.ofRat 0 :: p) (p.map (fun c => A.mul c a) ++ [A.ofRat 0])

/-- Coefficients of `∏ (X - y)`. -/
def nodal (A : Arith α) : List α → List α
  | [] => [A.ofRat 1]
  | y :: ys => mulLin A (nodal A ys) y

/-- `∏ (x - y)`. -/
def nodalAt (A : Arith α) (x : α) : List α → α
  | [] => A.ofRat 1
  | y :: ys => A.mul (nodalAt A x ys) (A.sub x y)

/-- `t^(k+1) / (k+1)` from `p = t^k`. -/
def moments (A : Arith α) (t : α) : ℕ → ℕ → α → List α
  | 0, _, _ => []
  | n + 1, k, p => A.div (A.mul p t) (A.ofRat ((k + 1 : ℕ) : ℚ)) :: moments A t n (k + 1) (A.mul p t)

/-- Numerators and denominators of the Lagrange polynomials. -/
def basis (A : Arith α) (x : List α) : List (List α × α) :=
  x.mapIdx fun j xj => (nodal A (x.eraseIdx j), nodalAt A xj (x.eraseIdx j))

/-- Integrals of the Lagrange polynomials from `0` to `t`. -/
def intRow (A : Arith α) (x : List α) (t : α) : List α :=
  let m := moments A t x.length 0 (A.ofRat 1)
  (basis A x).map fun b => A.div (dot A b.1 m) b.2

section Sound

variable {A : Arith α} {rel : α → ℝ → Prop} (hA : A.Sound rel)

/-- A list of coefficients. -/
def PRel (rel : α → ℝ → Prop) (n : ℕ) (p : List α) (P : ℝ[X]) : Prop :=
  P.natDegree < n ∧ VRel rel n p fun k => P.coeff k

noncomputable def nodalPoly (ys : List ℝ) : ℝ[X] := (ys.map fun y => X - C y).prod

theorem nodalPoly_monic (ys : List ℝ) : (nodalPoly ys).Monic := by
  induction ys with
  | nil => simp [nodalPoly]
  | cons y ys ih =>
    have : nodalPoly (y :: ys) = (X - C y) * nodalPoly ys := by simp [nodalPoly]
    rw [this]
    exact (monic_X_sub_C y).mul ih

theorem nodalPoly_natDegree (ys : List ℝ) : (nodalPoly ys).natDegree = ys.length := by
  induction ys with
  | nil => simp [nodalPoly]
  | cons y ys ih =>
    have : nodalPoly (y :: ys) = (X - C y) * nodalPoly ys := by simp [nodalPoly]
    rw [this, (monic_X_sub_C y).natDegree_mul (nodalPoly_monic ys), natDegree_X_sub_C, ih,
      List.length_cons, add_comm]

theorem nodalPoly_eval (ys : List ℝ) (t : ℝ) : (nodalPoly ys).eval t = (ys.map fun y => t - y).prod := by
  induction ys with
  | nil => simp [nodalPoly]
  | cons y ys ih =>
    have : nodalPoly (y :: ys) = (X - C y) * nodalPoly ys := by simp [nodalPoly]
    rw [this, eval_mul, ih]
    simp

include hA

theorem mulLin_rel {n : ℕ} {p : List α} {P : ℝ[X]} (hp : PRel rel n p P) {a : α} {y : ℝ} (ha : rel a y) :
    PRel rel (n + 1) (mulLin A p a) ((X - C y) * P) := by
  obtain ⟨h1, h2, h3⟩ := hp
  refine ⟨?_, by simp [mulLin, h2], fun k c hc => ?_⟩
  · refine lt_of_le_of_lt natDegree_mul_le ?_
    rw [natDegree_X_sub_C]
    omega
  · simp only [mulLin, List.getElem?_zipWith_eq_some] at hc
    obtain ⟨u, v, hu, hv, rfl⟩ := hc
    have e : ((X - C y) * P).coeff k = (X * P).coeff k - P.coeff k * y := by
      rw [sub_mul, coeff_sub, coeff_C_mul, mul_comm y]
    beta_reduce
    rw [e]
    refine hA.sub ?_ ?_
    · obtain ⟨k, hk⟩ := k
      cases k with
      | zero =>
        simp only [List.getElem?_cons_zero, Option.some.injEq] at hu
        subst hu
        have := hA.ofRat 0
        simpa using this
      | succ k =>
        simp only [List.getElem?_cons_succ] at hu
        have := h3 ⟨k, by omega⟩ u hu
        simpa [coeff_X_mul] using this
    · by_cases hk : (k:ℕ) < n
      · rw [List.getElem?_append_left (by simpa [h2] using hk), List.getElem?_map,
          Option.map_eq_some_iff] at hv
        obtain ⟨v', hv', rfl⟩ := hv
        exact hA.mul (h3 ⟨k, hk⟩ v' hv') ha
      · have hk' : (k:ℕ) = n := by have := k.2; omega
        rw [List.getElem?_append_right (by simp [h2]; omega)] at hv
        simp [h2, hk'] at hv
        subst hv
        rw [coeff_eq_zero_of_natDegree_lt (by omega), zero_mul]
        have := hA.ofRat 0
        simpa using this

theorem nodal_rel {l : List α} {ys : List ℝ} (h : List.Forall₂ rel l ys) :
    PRel rel (l.length + 1) (nodal A l) (nodalPoly ys) := by
  induction h with
  | nil =>
    refine ⟨by simp [nodalPoly], by simp [nodal], fun i a h => ?_⟩
    obtain rfl : i = 0 := Fin.ext (by have := i.2; simp at this; simpa using this)
    simp only [nodal, Fin.val_zero, List.getElem?_cons_zero, Option.some.injEq] at h
    subst h
    have := hA.ofRat 1
    simpa [nodalPoly] using this
  | @cons a y l ys ha hl ih =>
    have : nodalPoly (y :: ys) = (X - C y) * nodalPoly ys := by simp [nodalPoly]
    rw [this]
    exact mulLin_rel hA ih ha

theorem nodalAt_rel {l : List α} {ys : List ℝ} (h : List.Forall₂ rel l ys) {a : α} {t : ℝ} (ha : rel a t) :
    rel (nodalAt A a l) ((nodalPoly ys).eval t) := by
  induction h with
  | nil => simpa [nodalAt, nodalPoly] using hA.ofRat 1
  | @cons b y l ys hb hl ih =>
    have : nodalPoly (y :: ys) = (X - C y) * nodalPoly ys := by simp [nodalPoly]
    rw [this, eval_mul, mul_comm]
    refine hA.mul ih ?_
    simpa using hA.sub ha hb

theorem moments_rel {a p : α} {t : ℝ} (ha : rel a t) (n k : ℕ) (hp : rel p (t ^ k)) :
    VRel rel n (moments A a n k p) fun i => t ^ (k + i + 1) / ((k + i + 1 : ℕ) : ℝ) := by
  induction n generalizing k p with
  | zero => exact ⟨rfl, fun i => i.elim0⟩
  | succ n ih =>
    have hpt : rel (A.mul p a) (t ^ (k + 1)) := by rw [pow_succ]; exact hA.mul hp ha
    obtain ⟨h1, h2⟩ := ih (k + 1) hpt
    refine ⟨by simp [moments, h1], fun i c hc => ?_⟩
    obtain ⟨i, hi⟩ := i
    cases i with
    | zero =>
      simp only [moments, List.getElem?_cons_zero, Option.some.injEq] at hc
      subst hc
      have := hA.div hpt (hA.ofRat ((k + 1 : ℕ) : ℚ))
      simpa using this
    | succ i =>
      simp only [moments, List.getElem?_cons_succ] at hc
      have := h2 ⟨i, by omega⟩ c hc
      simp only at this ⊢
      rwa [show k + (i + 1) + 1 = k + 1 + i + 1 by omega]

omit hA in
theorem polyInt_eq {n : ℕ} {P : ℝ[X]} (h : P.natDegree < n) (t : ℝ) :
    polyInt P 0 t = (fun k : Fin n => P.coeff k) ⬝ᵥ
      fun i : Fin n => t ^ (0 + (i:ℕ) + 1) / ((0 + (i:ℕ) + 1 : ℕ) : ℝ) := by
  conv_lhs => rw [P.as_sum_range' n h]
  rw [polyInt_finsum, dotProduct, Finset.sum_range]
  refine Finset.sum_congr rfl fun i _ => ?_
  rw [← C_mul_X_pow_eq_monomial, polyInt_C_mul, polyInt_X_pow]
  simp

omit hA in
theorem forall₂_of_vrel {M : ℕ} {l : List α} {x : Fin M → ℝ} (h : VRel rel M l x) :
    List.Forall₂ rel l (List.ofFn x) := by
  rw [List.forall₂_iff_get]
  refine ⟨by simp [h.1], fun i h1 h2 => ?_⟩
  have := h.2 ⟨i, by simpa using h2⟩ (l.get ⟨i, h1⟩) (by simp)
  simpa using this

omit hA in
theorem forall₂_eraseIdx {l : List α} {ys : List ℝ} (h : List.Forall₂ rel l ys) (j : ℕ) :
    List.Forall₂ rel (l.eraseIdx j) (ys.eraseIdx j) := by
  induction h generalizing j with
  | nil => simp
  | cons ha hl ih =>
    cases j with
    | zero => simpa using hl
    | succ j => exact List.Forall₂.cons ha (ih j)

theorem intRow_rel {M : ℕ} {l : List α} {x : Fin M → ℝ} (hx : VRel rel M l x)
    (hinj : Function.Injective x) {a : α} {t : ℝ} (ha : rel a t) {r : Fin M → ℝ}
    (hr : ∀ P : ℝ[X], P.degree < M → ∑ i, r i * P.eval (x i) = polyInt P 0 t) :
    VRel rel M (intRow A l a) r := by
  refine ⟨by simp [intRow, basis, hx.1], fun j c hc => ?_⟩
  have hM : 0 < M := j.pos
  have hjl : (j:ℕ) < l.length := by rw [hx.1]; exact j.2
  simp only [intRow, basis, List.getElem?_map, List.getElem?_mapIdx, Option.map_map,
    Option.map_eq_some_iff, Function.comp] at hc
  obtain ⟨b, hb, rfl⟩ := hc
  have h2 := forall₂_eraseIdx (forall₂_of_vrel hx) j
  set ys := (List.ofFn x).eraseIdx j with hys
  have hlen : ys.length = M - 1 := by rw [hys, List.length_eraseIdx]; simp
  have hlen' : (l.eraseIdx j).length + 1 = l.length := by
    rw [List.length_eraseIdx, if_pos hjl]; omega
  have hP := nodal_rel hA h2
  have hN := nodalAt_rel hA h2 (hx.2 j b hb)
  have hm := moments_rel hA ha l.length 0 (by simpa using hA.ofRat 1)
  rw [hlen'] at hP
  have hI : rel (dot A (nodal A (l.eraseIdx j)) (moments A a l.length 0 (A.ofRat 1)))
      (polyInt (nodalPoly ys) 0 t) := by
    rw [polyInt_eq hP.1]
    exact dot_rel hA hP.2 hm
  have hmem : ∀ i, i ≠ j → x i ∈ ys := by
    intro i hij
    rw [hys, List.mem_eraseIdx_iff_getElem]
    exact ⟨i, by simp, fun h => hij (Fin.ext h), by simp⟩
  have hzero : ∀ i, i ≠ j → (nodalPoly ys).eval (x i) = 0 := by
    intro i hij
    rw [nodalPoly_eval, List.prod_eq_zero_iff]
    exact List.mem_map.mpr ⟨x i, hmem i hij, sub_self _⟩
  have hne : (nodalPoly ys).eval (x j) ≠ 0 := by
    rw [nodalPoly_eval]
    intro h0
    obtain ⟨y, hy, hy0⟩ := List.mem_map.mp (List.prod_eq_zero_iff.mp h0)
    rw [hys, List.mem_eraseIdx_iff_getElem] at hy
    obtain ⟨i, hi, hij, rfl⟩ := hy
    simp only [List.getElem_ofFn] at hy0
    have := hinj (sub_eq_zero.mp hy0)
    exact hij (by rw [this])
  have hdeg : (nodalPoly ys).degree < M := by
    rw [degree_eq_natDegree (nodalPoly_monic ys).ne_zero, nodalPoly_natDegree, hlen]
    exact_mod_cast (by omega : M - 1 < M)
  have hrow := hr _ hdeg
  rw [Finset.sum_eq_single j (fun i _ hij => by rw [hzero i hij, mul_zero]) (by simp)] at hrow
  have e : r j = polyInt (nodalPoly ys) 0 t / (nodalPoly ys).eval (x j) := by
    rw [← hrow]; field_simp
  rw [e]
  exact hA.div hI hN

end Sound

/-! ## The time-stepping matrices -/

/-- Entry `i` of a list of nodes. -/
def nd (A : Arith α) (x : List α) (i : ℕ) : α := x.getD i (A.ofRat 0)

def delta (A : Arith α) (x : List α) (i : ℕ) : α :=
  if i = 0 then nd A x 0 else A.sub (nd A x i) (nd A x (i - 1))

def qBE (A : Arith α) (x : List α) (i j : ℕ) : α := if j ≤ i then delta A x j else A.ofRat 0

def qFE (A : Arith α) (x : List α) (i j : ℕ) : α := if j < i then delta A x (j + 1) else A.ofRat 0

def qTRAP (A : Arith α) (x : List α) (i j : ℕ) : α :=
  A.mul (A.add (qBE A x i j) (qFE A x i j)) (A.ofRat (1 / 2))

def qBEPAR (A : Arith α) (x : List α) (i j : ℕ) : α := if i = j then nd A x i else A.ofRat 0

def qTRAPAR (A : Arith α) (x : List α) (i j : ℕ) : α :=
  if i = j then A.mul (nd A x i) (A.ofRat (1 / 2)) else A.ofRat 0

/-- `1 / alpha[2]` of the three points `p0, p1, p2`. -/
def soeLast (A : Arith α) (p0 p1 p2 : α) : α := A.div (A.mul (A.sub p2 p0) (A.sub p2 p1)) (A.sub p1 p0)

/-- `-alpha[0] / alpha[2]`. -/
def soeBack (A : Arith α) (p0 p1 p2 : α) : α :=
  let r := A.div (A.sub p2 p1) (A.sub p1 p0)
  A.mul r r

/-- Entries of the matrix of `SOE`; `left` tells that the first node is `0`. -/
def qSOE (A : Arith α) (x : List α) (left : Bool) : ℕ → ℕ → α
  | 0, _ => A.ofRat 0
  | 1, j => if j = 0 then
      (if left then nd A x 1 else soeLast A (A.ofRat 0) (nd A x 0) (nd A x 1)) else A.ofRat 0
  | m + 2, j =>
    if j ≤ m then
      A.add (A.mul (A.sub (A.ofRat 1) (soeBack A (nd A x m) (nd A x (m + 1)) (nd A x (m + 2))))
          (qSOE A x left (m + 1) j))
        (A.mul (soeBack A (nd A x m) (nd A x (m + 1)) (nd A x (m + 2))) (qSOE A x left m j))
    else if j = m + 1 then soeLast A (nd A x m) (nd A x (m + 1)) (nd A x (m + 2)) else A.ofRat 0

section Sound

variable {A : Arith α} {rel : α → ℝ → Prop} (hA : A.Sound rel)

theorem nd_rel {M : ℕ} {l : List α} {x : Fin M → ℝ} (hx : VRel rel M l x) (i : ℕ) (hi : i < M) :
    rel (nd A l i) (x ⟨i, hi⟩) := by
  have hi' : i < l.length := by rw [hx.1]; exact hi
  have := hx.2 ⟨i, hi⟩ l[i] (by simp [hi'])
  simpa [nd, List.getD_eq_getElem?_getD, hi'] using this

include hA

theorem zero_rel : rel (A.ofRat 0) 0 := by simpa using hA.ofRat 0

theorem delta_rel {M : ℕ} {l : List α} {x : Fin M → ℝ} (hx : VRel rel M l x) {g : TimeStepping M}
    (hg : TimeStepping.new x 0 = .ok g) (i : Fin M) : rel (delta A l i) (g.deltas i) := by
  obtain ⟨-, -, -, h⟩ := g.new_ok hg
  rw [h i, delta]
  split_ifs with hi
  · have := nd_rel (A := A) hx 0 (by have := i.2; omega)
    rw [sub_zero]
    convert this using 2
    exact Fin.ext hi
  · exact hA.sub (nd_rel hx i i.2) (nd_rel hx (i - 1) _)

theorem schemes_rel {M : ℕ} {l : List α} {x : Fin M → ℝ} (hx : VRel rel M l x) {g : TimeStepping M}
    (hg : TimeStepping.new x 0 = .ok g) (r c : Fin M) :
    rel (qBE A l r c) (g.computeBE r c) ∧ rel (qFE A l r c) (g.computeFE r c) ∧
    rel (qTRAP A l r c) (g.computeTRAP r c) ∧ rel (qBEPAR A l r c) (g.computeBEPAR r c) ∧
    rel (qTRAPAR A l r c) (g.computeTRAPAR r c) := by
  have hd := delta_rel hA hx hg
  obtain ⟨-, hn, ht, -⟩ := g.new_ok hg
  have h0 := zero_rel hA
  have hhalf : rel (A.ofRat (1 / 2)) (1 / 2) := by
    have := hA.ofRat (1 / 2)
    push_cast at this
    exact this
  have hBE : rel (qBE A l r c) (g.computeBE r c) := by
    rw [g.computeBE_apply, qBE]
    by_cases h : c ≤ r
    · rw [if_pos h, if_pos (Fin.le_def.mp h)]
      exact hd c
    · rw [if_neg h, if_neg (fun h' => h (Fin.le_def.mpr h'))]
      exact h0
  have hFE : rel (qFE A l r c) (g.computeFE r c) := by
    rw [g.computeFE_apply, qFE]
    by_cases h : c < r
    · have h' := Fin.lt_def.mp h
      rw [if_pos h, if_pos h', atPos, dif_pos (by omega)]
      exact hd ⟨c + 1, by omega⟩
    · rw [if_neg h, if_neg (fun h' => h (Fin.lt_def.mpr h'))]
      exact h0
  refine ⟨hBE, hFE, ?_, ?_, ?_⟩
  · rw [g.computeTRAP_eq, div_eq_mul_one_div]
    exact hA.mul (hA.add hBE hFE) hhalf
  · simp only [TimeStepping.computeBEPAR, Matrix.of_apply, ht, hn, sub_zero, qBEPAR,
      Matrix.diagonal_apply, Fin.ext_iff]
    split_ifs
    · exact nd_rel hx r r.2
    · exact h0
  · simp only [TimeStepping.computeTRAPAR, Matrix.of_apply, ht, hn, sub_zero, qTRAPAR,
      Matrix.diagonal_apply, Fin.ext_iff]
    split_ifs
    · have e : x r / 2 = x r * (1 / 2) := by ring
      rw [e]
      exact hA.mul (nd_rel hx r r.2) hhalf
    · exact h0

omit hA in
/-- The coefficients of the parabola through three points. -/
theorem alpha_eq {a : Fin 3 → ℝ} {p0 p1 p2 : ℝ} (h01 : p0 < p1) (h12 : p1 < p2)
    (h : ∀ p : ℝ[X], p.degree < 3 → a 0 * p.eval p0 + a 1 * p.eval p1 + a 2 * p.eval p2 =
      (derivative p).eval p1) :
    1 / a 2 = (p2 - p0) * (p2 - p1) / (p1 - p0) ∧
    -(a 1) / a 2 = 1 - (p2 - p1) / (p1 - p0) * ((p2 - p1) / (p1 - p0)) ∧
    a 0 / a 2 = -((p2 - p1) / (p1 - p0) * ((p2 - p1) / (p1 - p0))) := by
  have d0 : p1 - p0 ≠ 0 := (sub_pos.mpr h01).ne'
  have d1 : p2 - p1 ≠ 0 := (sub_pos.mpr h12).ne'
  have d2 : p2 - p0 ≠ 0 := (sub_pos.mpr (h01.trans h12)).ne'
  have deg : ∀ u v : ℝ, ((X - C u) * (X - C v) : ℝ[X]).degree < 3 := by
    intro u v
    rw [degree_mul, degree_X_sub_C, degree_X_sub_C]
    decide
  have h1 := h 1 (by rw [degree_one]; decide)
  have e2 := h ((X - C p0) * (X - C p1)) (deg _ _)
  have e0 := h ((X - C p1) * (X - C p2)) (deg _ _)
  simp only [derivative_mul, derivative_sub, derivative_X, derivative_C, eval_add, eval_mul, eval_sub,
    eval_X, eval_C, eval_one, derivative_one, eval_zero, sub_zero, sub_self, mul_zero, zero_mul, mul_one,
    one_mul, add_zero, zero_add] at h1 e2 e0
  have a2 : a 2 = (p1 - p0) / ((p2 - p0) * (p2 - p1)) := by
    rw [eq_div_iff (mul_ne_zero d2 d1)]; linarith
  have a0 : a 0 = -((p2 - p1) / ((p1 - p0) * (p2 - p0))) := by
    rw [eq_comm, neg_eq_iff_eq_neg, div_eq_iff (mul_ne_zero d0 d2)]; linarith
  have a1 : a 1 = -a 0 - a 2 := by linarith
  refine ⟨?_, ?_, ?_⟩
  · rw [a2, one_div_div]
  · rw [a1, a0, a2]
    field_simp
    ring
  · rw [a0, a2]
    field_simp

theorem soe_rel {M : ℕ} {l : List α} {x : Fin M → ℝ} (hx : VRel rel M l x) (hinc : StrictMono x)
    (h0 : ∀ i, 0 ≤ x i) {g : TimeStepping M} (hg : TimeStepping.new x 0 = .ok g) {left : Bool}
    (hleft : ∀ h : 0 < M, if left then x ⟨0, h⟩ = 0 else 0 < x ⟨0, h⟩) :
    ∃ D, g.computeSOE = .ok D ∧ ∀ r c : Fin M, rel (qSOE A l left r c) (D r c) := by
  obtain ⟨a, ha, hfirst, hzero, hrest⟩ := soe_alpha hinc h0 hg
  obtain ⟨R, hR, hS⟩ := computeSOE_rows g a ha
  have z := zero_rel hA
  refine ⟨_, hR, fun r c => ?_⟩
  simp only [Matrix.of_apply]
  have one : rel (A.ofRat 1) 1 := by simpa using hA.ofRat 1
  have hlast : ∀ {b0 b1 b2 : α} {p0 p1 p2 : ℝ}, rel b0 p0 → rel b1 p1 → rel b2 p2 →
      rel (soeLast A b0 b1 b2) ((p2 - p0) * (p2 - p1) / (p1 - p0)) := fun i0 i1 i2 =>
    hA.div (hA.mul (hA.sub i2 i0) (hA.sub i2 i1)) (hA.sub i1 i0)
  have hback : ∀ {b0 b1 b2 : α} {p0 p1 p2 : ℝ}, rel b0 p0 → rel b1 p1 → rel b2 p2 →
      rel (soeBack A b0 b1 b2) ((p2 - p1) / (p1 - p0) * ((p2 - p1) / (p1 - p0))) := fun i0 i1 i2 =>
    hA.mul (hA.div (hA.sub i2 i1) (hA.sub i1 i0)) (hA.div (hA.sub i2 i1) (hA.sub i1 i0))
  have key : ∀ m j, m < M → rel (qSOE A l left m j) (R m j) := by
    intro m
    induction m using Nat.strong_induction_on with
    | _ m ih =>
      intro j hm
      match m, ih, hm with
      | 0, _, _ =>
        rw [hS.zero 0 j (Or.inl rfl)]
        exact z
      | 1, _, hm =>
        simp only [qSOE]
        split_ifs with hj hl
        · subst hj
          have hl' := hleft (by omega)
          rw [if_pos hl] at hl'
          rw [hS.last 0 (by omega), hzero (by omega) hl', one_div_one_div]
          exact nd_rel hx 1 hm
        · subst hj
          have hl' := hleft (by omega)
          rw [if_neg hl] at hl'
          obtain ⟨-, hp⟩ := hfirst (by omega) hl'
          rw [hS.last 0 (by omega), (alpha_eq hl' (hinc (by simp)) hp).1]
          exact hlast z (nd_rel hx 0 _) (nd_rel hx 1 hm)
        · rw [hS.upper 1 j (by omega)]
          exact z
      | m + 2, ih, hm =>
        obtain ⟨-, hp⟩ := hrest m hm
        obtain ⟨e1, e2, e3⟩ := alpha_eq (hinc (by simp)) (hinc (by simp)) hp
        have i0 := nd_rel (A := A) hx m (by omega)
        have i1 := nd_rel (A := A) hx (m + 1) (by omega)
        have i2 := nd_rel (A := A) hx (m + 2) hm
        simp only [qSOE]
        split_ifs with hj hj2
        · rw [hS.rest m j (by omega) hj, e2, e3, neg_mul, sub_neg_eq_add]
          exact hA.add (hA.mul (hA.sub one (hback i0 i1 i2)) (ih (m + 1) (by omega) j (by omega)))
            (hA.mul (hback i0 i1 i2) (ih m (by omega) j (by omega)))
        · subst hj2
          rw [hS.last (m + 1) (by omega), e1]
          exact hlast i0 i1 i2
        · rw [hS.upper (m + 2) j (by omega)]
          exact z
  exact key r c r.2

end Sound

end SDCArith

end QMat
