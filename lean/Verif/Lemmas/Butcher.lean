import Verif.Model.Butcher
import Verif.Spec.RootedTree
import Verif.Spec.Stability

/-!
# Checking order conditions of tables by exact computation
-/

namespace QMat

open Spec Matrix

theorem getD_of_lt {α : Type} (l : List α) (d : α) {i : ℕ} (h : i < l.length) :
    l.getD i d = l[i] := by
  simp [List.getD_eq_getElem?_getD, List.getElem?_eq_getElem h]

namespace Quad

variable {d : ℕ}

/-- Lower bound of `√d`, 30 digits, for `d = 2, 3`. -/
def sqrtLo (d : ℕ) : ℚ :=
  if d = 2 then 1414213562373095048801688724209 / 10 ^ 30
  else 1732050807568877293527446341505 / 10 ^ 30

/-- Sufficient condition for `|x| ≤ tol`. -/
def absLe (x : Quad d) (tol : ℚ) : Bool :=
  |x.a + x.b * sqrtLo d| + |x.b| * (1 / 10 ^ 30) ≤ tol

theorem sqrt_bounds (hd : d = 2 ∨ d = 3) :
    ((sqrtLo d : ℚ) : ℝ) ≤ Real.sqrt d ∧ Real.sqrt d ≤ ((sqrtLo d : ℚ) : ℝ) + 1 / 10 ^ 30 := by
  rcases hd with rfl | rfl
  · constructor
    · apply Real.le_sqrt_of_sq_le; norm_num [sqrtLo]
    · apply Real.sqrt_le_iff.mpr; constructor <;> norm_num [sqrtLo]
  · constructor
    · apply Real.le_sqrt_of_sq_le; norm_num [sqrtLo]
    · apply Real.sqrt_le_iff.mpr; constructor <;> norm_num [sqrtLo]

theorem absLe_sound (hd : d = 2 ∨ d = 3) {x : Quad d} {tol : ℚ} (h : absLe x tol = true) :
    |x.toReal| ≤ tol := by
  obtain ⟨h1, h2⟩ := sqrt_bounds hd
  have h := of_decide_eq_true h
  have h' : |(x.a : ℝ) + x.b * (sqrtLo d : ℚ)| + |(x.b:ℝ)| * (1 / 10 ^ 30) ≤ tol := by
    have := (Rat.cast_le (K := ℝ)).mpr h
    push_cast at this
    exact this
  refine le_trans ?_ h'
  unfold toReal
  have e : (x.a : ℝ) + x.b * Real.sqrt d = (x.a + x.b * (sqrtLo d : ℚ)) +
      x.b * (Real.sqrt d - (sqrtLo d : ℚ)) := by ring
  rw [e]
  refine (abs_add_le _ _).trans (add_le_add le_rfl ?_)
  rw [abs_mul, abs_of_nonneg (by linarith : 0 ≤ Real.sqrt d - (sqrtLo d : ℚ))]
  exact mul_le_mul_of_nonneg_left (by linarith) (abs_nonneg _)

/-- Sufficient condition for `tol ≤ |x|`. -/
def absGe (x : Quad d) (tol : ℚ) : Bool :=
  tol ≤ |x.a + x.b * sqrtLo d| - |x.b| * (1 / 10 ^ 30)

theorem dist_lo (hd : d = 2 ∨ d = 3) (x : Quad d) :
    |x.toReal - ((x.a + x.b * sqrtLo d : ℚ) : ℝ)| ≤ ((|x.b| * (1 / 10 ^ 30) : ℚ) : ℝ) := by
  obtain ⟨h1, h2⟩ := sqrt_bounds hd
  have e : x.toReal - ((x.a + x.b * sqrtLo d : ℚ) : ℝ) = x.b * (Real.sqrt d - (sqrtLo d : ℚ)) := by
    unfold toReal; push_cast; ring
  rw [e, abs_mul, abs_of_nonneg (by linarith : 0 ≤ Real.sqrt d - (sqrtLo d : ℚ))]
  push_cast
  exact mul_le_mul_of_nonneg_left (by linarith) (abs_nonneg _)

theorem absGe_sound (hd : d = 2 ∨ d = 3) {x : Quad d} {tol : ℚ} (h : absGe x tol = true) :
    tol ≤ |x.toReal| := by
  have h := (Rat.cast_le (K := ℝ)).mpr (of_decide_eq_true h)
  have h1 := dist_lo hd x
  have h2 := abs_sub_abs_le_abs_sub ((x.a + x.b * sqrtLo d : ℚ) : ℝ) x.toReal
  rw [abs_sub_comm] at h2
  rw [Rat.cast_sub, Rat.cast_abs] at h
  linarith

theorem nonneg_sound (hd : d = 2 ∨ d = 3) {x : Quad d}
    (h : 0 ≤ x.a + x.b * sqrtLo d - |x.b| * (1 / 10 ^ 30)) : 0 ≤ x.toReal := by
  have h := (Rat.cast_le (K := ℝ)).mpr h
  have h1 := (abs_le.mp (dist_lo hd x)).1
  rw [Rat.cast_sub, Rat.cast_zero] at h
  linarith

/-- Scalar product of two lists. -/
def dot (x y : List (Quad d)) : Quad d := (List.zipWith (· * ·) x y).foldr (· + ·) 0

theorem dot_toReal (x y : List (Quad d)) (n : ℕ) (hx : x.length ≤ n) :
    (dot x y).toReal = ∑ i : Fin n, (x.getD i 0).toReal * (y.getD i 0).toReal := by
  induction x generalizing y n with
  | nil => simp [dot]
  | cons a x ih =>
    obtain ⟨n, rfl⟩ : ∃ m, n = m + 1 := ⟨n - 1, by simp at hx; omega⟩
    cases y with
    | nil => simp [dot]
    | cons b y =>
      have := ih y n (by simpa using hx)
      rw [Fin.sum_univ_succ]
      simp only [dot, List.zipWith_cons_cons, List.foldr_cons, toReal_add, toReal_mul] at this ⊢
      rw [this]
      simp

end Quad

namespace RTree'

/-- All trees with `n` vertices, `n` at most the fuel. -/
def trees : ℕ → ℕ → List RTree
  | 0, _ => []
  | f + 1, n =>
    if n = 1 then [RTree.leaf]
    else (List.range n).flatMap fun k => (trees f k).flatMap fun t => (trees f (n - k)).map (RTree.graft t)

theorem order_pos (t : RTree) : 0 < t.order := by
  induction t with
  | leaf => simp [RTree.order]
  | graft t s iht ihs => simp only [RTree.order]; omega

theorem mem_trees (t : RTree) (f : ℕ) (hf : t.order ≤ f) : t ∈ trees f t.order := by
  induction t generalizing f with
  | leaf =>
    obtain ⟨f, rfl⟩ : ∃ m, f = m + 1 := ⟨f - 1, by simp [RTree.order] at hf; omega⟩
    simp [trees, RTree.order]
  | graft t s iht ihs =>
    have h1 := order_pos t
    have h2 := order_pos s
    simp only [RTree.order] at hf ⊢
    obtain ⟨f, rfl⟩ : ∃ m, f = m + 1 := ⟨f - 1, by omega⟩
    rw [trees, if_neg (by omega)]
    refine List.mem_flatMap.mpr ⟨t.order, List.mem_range.mpr (by omega), ?_⟩
    refine List.mem_flatMap.mpr ⟨t, iht f (by omega), ?_⟩
    refine List.mem_map.mpr ⟨s, ?_, rfl⟩
    rw [show t.order + s.order - t.order = s.order by omega]
    exact ihs f (by omega)

/-- The tree with one branch and `k + 1` vertices. -/
def tall : ℕ → RTree
  | 0 => RTree.leaf
  | k + 1 => RTree.graft RTree.leaf (tall k)

theorem tall_order (k : ℕ) : (tall k).order = k + 1 := by
  induction k with
  | zero => rfl
  | succ k ih => simp only [tall, RTree.order, ih]; omega

theorem tall_density (k : ℕ) : (tall k).density = (k + 1).factorial := by
  induction k with
  | zero => rfl
  | succ k ih =>
    unfold RTree.density at ih ⊢
    rw [tall_order] at ih ⊢
    simp only [tall, RTree.childDensity, one_mul, tall_order, Nat.factorial_succ (k + 1), ← ih]

theorem tall_stageWeight {s : ℕ} (A : Matrix (Fin s) (Fin s) ℝ) (k : ℕ) :
    (tall k).stageWeight A = (A ^ k) *ᵥ fun _ => 1 := by
  induction k with
  | zero => funext i; simp [tall, RTree.stageWeight]
  | succ k ih =>
    funext i
    simp only [tall, RTree.stageWeight, one_mul]
    rw [ih, Matrix.mulVec_mulVec, ← pow_succ']

end RTree'

/-- Linear order conditions up to an error. -/
theorem linear_of_tree {s : ℕ} {A : Matrix (Fin s) (Fin s) ℝ} {b : Fin s → ℝ} {p : ℕ} {tol : ℝ}
    (h : TreeOrder A b p tol) (k : ℕ) (hk : k < p) :
    |b ⬝ᵥ ((A ^ k) *ᵥ fun _ => 1) - 1 / (k + 1).factorial| ≤ tol := by
  have := h (RTree'.tall k) (by rw [RTree'.tall_order]; omega)
  rwa [RTree'.tall_density, RTree.elementaryWeight, RTree'.tall_stageWeight] at this

namespace RKTable

variable (T : RKTable)

/-- `stageWeight` by exact computation on lists. -/
def treeVec : RTree → List (Quad T.d)
  | .leaf => List.replicate T.c.length 1
  | .graft t s => List.zipWith (· * ·) (treeVec t) (T.A.map fun row => Quad.dot row (treeVec s))

theorem treeVec_length (h : T.shapesOk = true) (t : RTree) : (T.treeVec t).length = T.c.length := by
  simp only [shapesOk, Bool.and_eq_true, decide_eq_true_eq] at h
  induction t with
  | leaf => simp [treeVec]
  | graft t s iht ihs => simp [treeVec, iht, h.1.2]

theorem treeVec_toReal (h : T.shapesOk = true) (t : RTree) (i : Fin T.c.length) :
    ((T.treeVec t).getD i 0).toReal = t.stageWeight T.toRK.A i := by
  have hl := T.treeVec_length h
  simp only [shapesOk, Bool.and_eq_true, decide_eq_true_eq, List.all_eq_true] at h
  induction t generalizing i with
  | leaf =>
    rw [treeVec, getD_of_lt _ _ (by simp), List.getElem_replicate]
    simp [RTree.stageWeight]
  | graft t s iht ihs =>
    have hi := i.isLt
    have hA : (i:ℕ) < T.A.length := by rw [h.1.2]; exact hi
    have ht := iht i
    rw [getD_of_lt _ _ (by rw [hl]; exact hi)] at ht
    rw [treeVec, getD_of_lt _ _ (by simp [hl, h.1.2]),
      List.getElem_zipWith, Quad.toReal_mul, List.getElem_map, ht,
      Quad.dot_toReal _ _ T.c.length (h.2 _ (List.getElem_mem hA)).le]
    simp only [RTree.stageWeight]
    congr 1
    change _ = ∑ j, T.toRK.A i j * s.stageWeight T.toRK.A j
    refine Finset.sum_congr rfl fun j _ => ?_
    rw [ihs j]
    congr 2
    rw [getD_of_lt T.A _ hA]

/-- `Φ(t) - 1/γ(t)` for the weights `b`. -/
def residual (b : List (Quad T.d)) (t : RTree) : Quad T.d :=
  Quad.dot b (T.treeVec t) - ⟨1 / t.density, 0⟩

theorem residual_toReal (h : T.shapesOk = true) (b : List (Quad T.d)) (hb : b.length = T.c.length)
    (t : RTree) : (T.residual b t).toReal =
      t.elementaryWeight T.toRK.A (fun i => (b.getD i 0).toReal) - 1 / t.density := by
  rw [residual, Quad.toReal_sub, Quad.dot_toReal _ _ T.c.length hb.le]
  congr 1
  · rw [RTree.elementaryWeight, dotProduct]
    refine Finset.sum_congr rfl fun i _ => ?_
    rw [T.treeVec_toReal h]
  · simp [Quad.toReal]

/-- All order conditions up to `p` hold up to `tol`. -/
def treeOk (b : List (Quad T.d)) (p : ℕ) (tol : ℚ) : Bool :=
  (List.range (p + 1)).all fun n => (RTree'.trees p n).all fun t => (T.residual b t).absLe tol

/-- The linear order conditions up to `p` hold up to `tol`. -/
def linOk (b : List (Quad T.d)) (p : ℕ) (tol : ℚ) : Bool :=
  (List.range p).all fun k => (T.residual b (RTree'.tall k)).absLe tol

theorem treeOk_sound (hd : T.d = 2 ∨ T.d = 3) (h : T.shapesOk = true) (b : List (Quad T.d))
    (hb : b.length = T.c.length) {p : ℕ} {tol : ℚ} (hok : T.treeOk b p tol = true) :
    TreeOrder T.toRK.A (fun i => (b.getD i 0).toReal) p tol := by
  intro t ht
  simp only [treeOk, List.all_eq_true, List.mem_range] at hok
  have := Quad.absLe_sound hd (hok t.order (by omega) t (RTree'.mem_trees t p ht))
  rwa [T.residual_toReal h b hb] at this

theorem linOk_sound (hd : T.d = 2 ∨ T.d = 3) (h : T.shapesOk = true) (b : List (Quad T.d))
    (hb : b.length = T.c.length) {p : ℕ} {tol : ℚ} (hok : T.linOk b p tol = true) (k : ℕ) (hk : k < p) :
    |(fun i : Fin T.toRK.s => (b.getD i 0).toReal) ⬝ᵥ ((T.toRK.A ^ k) *ᵥ fun _ => 1) -
      1 / (k + 1).factorial| ≤ tol := by
  simp only [linOk, List.all_eq_true, List.mem_range] at hok
  have := Quad.absLe_sound hd (hok k hk)
  rw [T.residual_toReal h b hb, RTree'.tall_density, RTree.elementaryWeight,
    RTree'.tall_stageWeight] at this
  exact this

/-- The nodes are the row sums of `A`, up to `tol`. -/
def rowSumOk (tol : ℚ) : Bool :=
  (List.zipWith (fun row ci => (Quad.dot row (List.replicate T.c.length 1) - ci).absLe tol) T.A T.c).all id

theorem rowSumOk_sound (hd : T.d = 2 ∨ T.d = 3) (h : T.shapesOk = true) {tol : ℚ}
    (hok : T.rowSumOk tol = true) (i : Fin T.toRK.s) :
    |∑ j, T.toRK.A i j - T.toRK.c i| ≤ tol := by
  simp only [shapesOk, Bool.and_eq_true, decide_eq_true_eq, List.all_eq_true] at h
  have hi : (i:ℕ) < T.c.length := i.isLt
  have hA : (i:ℕ) < T.A.length := by rw [h.1.2]; exact hi
  rw [rowSumOk, List.all_eq_true] at hok
  have hz : (i:ℕ) < (List.zipWith (fun row ci =>
    (Quad.dot row (List.replicate T.c.length 1) - ci).absLe tol) T.A T.c).length := by
    simp [hA, hi]
  have := hok _ (List.getElem_mem hz)
  rw [id, List.getElem_zipWith] at this
  have := Quad.absLe_sound hd this
  rw [Quad.toReal_sub, Quad.dot_toReal _ _ T.c.length (h.2 _ (List.getElem_mem hA)).le] at this
  refine le_trans (le_of_eq ?_) this
  congr 2
  · refine Finset.sum_congr rfl fun j _ => ?_
    have : ((List.replicate T.c.length (1 : Quad T.d)).getD j 0) = 1 := by
      rw [getD_of_lt _ _ (by simp only [List.length_replicate]; exact j.isLt), List.getElem_replicate]
    rw [this, Quad.toReal_one, mul_one]
    change ((T.A.getD i []).getD j 0).toReal = _
    rw [getD_of_lt T.A _ hA]
  · change ((T.c.getD i 0)).toReal = _
    rw [getD_of_lt T.c _ hi]

/-- `A` vanishes above (`strict = false`) or on and above (`strict = true`) the diagonal. -/
def lowerOk (strict : Bool) : Bool :=
  T.A.zipIdx.all fun x => x.1.zipIdx.all fun y =>
    (y.2 < x.2) || (!strict && y.2 = x.2) || (y.1 = (0 : Quad T.d))

theorem lowerOk_sound (h : T.shapesOk = true) {strict : Bool} (hok : T.lowerOk strict = true)
    (i j : Fin T.toRK.s) (hij : i < j ∨ (strict = true ∧ i = j)) : T.toRK.A i j = 0 := by
  simp only [shapesOk, Bool.and_eq_true, decide_eq_true_eq, List.all_eq_true] at h
  have hi : (i:ℕ) < T.c.length := i.isLt
  have hj : (j:ℕ) < T.c.length := j.isLt
  have hA : (i:ℕ) < T.A.length := by rw [h.1.2]; exact hi
  have hr : (j:ℕ) < (T.A[(i:ℕ)]).length := by rw [h.2 _ (List.getElem_mem hA)]; exact hj
  simp only [lowerOk, List.all_eq_true] at hok
  have h1 := hok (T.A[(i:ℕ)], (i:ℕ)) (by rw [List.mk_mem_zipIdx_iff_getElem?]; simp [hA])
  have h2 := h1 ((T.A[(i:ℕ)])[(j:ℕ)], (j:ℕ)) (by rw [List.mk_mem_zipIdx_iff_getElem?]; simp [hr])
  change ((T.A.getD i []).getD j 0).toReal = 0
  rw [getD_of_lt T.A _ hA, getD_of_lt _ _ hr]
  simp only [Bool.or_eq_true, decide_eq_true_eq, Bool.and_eq_true, Bool.not_eq_true'] at h2
  rcases h2 with (h2 | h2) | h2
  · exfalso
    rcases hij with hij | ⟨-, hij⟩
    · exact absurd (Fin.lt_def.mp hij) (by omega)
    · rw [hij] at h2; omega
  · exfalso
    rcases hij with hij | ⟨hs, -⟩
    · exact absurd (Fin.lt_def.mp hij) (by omega)
    · rw [hs] at h2; simp at h2
  · rw [h2, Quad.toReal_zero]

/-- The diagonal of `A` is not negative. -/
def diagOk : Bool :=
  (List.range T.c.length).all fun i =>
    let x := (T.A.getD i []).getD i 0
    0 ≤ x.a + x.b * Quad.sqrtLo T.d - |x.b| * (1 / 10 ^ 30)

theorem diagOk_sound (hd : T.d = 2 ∨ T.d = 3) (hok : T.diagOk = true) (i : Fin T.toRK.s) :
    0 ≤ T.toRK.A i i := by
  simp only [diagOk, List.all_eq_true, List.mem_range, decide_eq_true_eq] at hok
  have := hok i i.isLt
  exact Quad.nonneg_sound hd this

/-- Some tree with `n` vertices has a residual above `tol`. -/
def treeBad (b : List (Quad T.d)) (n : ℕ) (tol : ℚ) : Bool :=
  (RTree'.trees n n).any fun t => t.order = n && (T.residual b t).absGe tol

theorem treeBad_sound (hd : T.d = 2 ∨ T.d = 3) (h : T.shapesOk = true) (b : List (Quad T.d))
    (hb : b.length = T.c.length) {n : ℕ} {tol : ℚ} (hok : T.treeBad b n tol = true) :
    ∃ t : RTree, t.order = n ∧
      tol ≤ |t.elementaryWeight T.toRK.A (fun i => (b.getD i 0).toReal) - 1 / t.density| := by
  simp only [treeBad, List.any_eq_true, Bool.and_eq_true, decide_eq_true_eq] at hok
  obtain ⟨t, -, ht, hb'⟩ := hok
  refine ⟨t, ht, ?_⟩
  rw [← T.residual_toReal h b hb]
  exact Quad.absGe_sound hd hb'

/-- The linear condition for `k + 1` has a residual above `tol`. -/
def linBad (b : List (Quad T.d)) (k : ℕ) (tol : ℚ) : Bool :=
  (T.residual b (RTree'.tall k)).absGe tol

theorem linBad_sound (hd : T.d = 2 ∨ T.d = 3) (h : T.shapesOk = true) (b : List (Quad T.d))
    (hb : b.length = T.c.length) {k : ℕ} {tol : ℚ} (hok : T.linBad b k tol = true) :
    tol ≤ |(fun i : Fin T.toRK.s => (b.getD i 0).toReal) ⬝ᵥ ((T.toRK.A ^ k) *ᵥ fun _ => 1) -
      1 / (k + 1).factorial| := by
  have := Quad.absGe_sound hd hok
  rw [T.residual_toReal h b hb, RTree'.tall_density, RTree.elementaryWeight,
    RTree'.tall_stageWeight] at this
  exact this

end RKTable

end QMat
