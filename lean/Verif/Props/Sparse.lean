import Verif.Model.Sparse
import Verif.Props.Lagrange
import Mathlib.Data.Fin.Tuple.Sort

/-!
# C12: `getSparseInterpolationMatrix`
-/

namespace QMat

open Polynomial LagrangeApproximation

/-! ## The nearest points -/

theorem closestSet_card (sort : ArgSort) {N : ℕ} (dist : Fin N → ℝ) (q : ℕ) (hq : q ≤ N) :
    (closestSet sort dist q).card = q := by
  have hs : sliceLen N q = q := by simp [sliceLen, hq]
  have e : closestSet sort dist q =
      (Finset.univ.filter fun i : Fin N => (i : ℕ) < q).map (sort.perm dist).toEmbedding := by
    ext i
    simp only [closestSet, hs, Finset.mem_filter, Finset.mem_univ, true_and, Finset.mem_map_equiv]
  rw [e, Finset.card_map, Fin.card_filter_val_lt, min_eq_right hq]

theorem closestSet_nearest (sort : ArgSort) {N : ℕ} (dist : Fin N → ℝ) (q : ℕ) (i j : Fin N)
    (hi : i ∈ closestSet sort dist q) (hj : j ∉ closestSet sort dist q) : dist i ≤ dist j := by
  simp only [closestSet, Finset.mem_filter, Finset.mem_univ, true_and, not_lt] at hi hj
  have := sort.sorts dist (show (sort.perm dist).symm i ≤ (sort.perm dist).symm j from by
    rw [Fin.le_def]; omega)
  simpa using this

/-! ## Scatter -/

theorem scatter_aux {n q : ℕ} (idx : Fin q → Fin n) (line : Fin q → ℝ) (hidx : Function.Injective idx)
    (l : List (Fin q)) :
    (∀ k ∈ l, l.foldl (fun (r : Fin n → ℝ) k => Function.update r (idx k) (line k)) 0 (idx k) = line k) ∧
    ∀ j, (∀ k ∈ l, idx k ≠ j) →
      l.foldl (fun (r : Fin n → ℝ) k => Function.update r (idx k) (line k)) 0 j = 0 := by
  induction l using List.reverseRecOn with
  | nil => simp
  | append_singleton l a ih =>
    simp only [List.foldl_append, List.foldl_cons, List.foldl_nil]
    refine ⟨fun k hk => ?_, fun j hj => ?_⟩
    · by_cases hka : k = a
      · subst hka; simp
      · rw [Function.update_of_ne (fun h => hka (hidx h))]
        exact ih.1 k (by simpa [hka] using hk)
    · rw [Function.update_of_ne (fun h => hj a (by simp) h.symm)]
      exact ih.2 j fun k hk => hj k (by simp [hk])

theorem scatter_idx {n q : ℕ} (idx : Fin q → Fin n) (line : Fin q → ℝ) (hidx : Function.Injective idx)
    (k : Fin q) : scatter idx line (idx k) = line k :=
  (scatter_aux idx line hidx _).1 k (List.mem_finRange k)

theorem scatter_zero {n q : ℕ} (idx : Fin q → Fin n) (line : Fin q → ℝ) (hidx : Function.Injective idx)
    (j : Fin n) (hj : ∀ k, idx k ≠ j) : scatter idx line j = 0 :=
  (scatter_aux idx line hidx _).2 j fun k _ => hj k

theorem scatter_sum {n q : ℕ} (idx : Fin q → Fin n) (line : Fin q → ℝ) (hidx : Function.Injective idx)
    (f : Fin n → ℝ) : ∑ j, scatter idx line j * f j = ∑ k, line k * f (idx k) := by
  rw [← Finset.sum_subset (Finset.subset_univ (Finset.univ.image idx))]
  · rw [Finset.sum_image fun a _ b _ h => hidx h]
    exact Finset.sum_congr rfl fun k _ => by rw [scatter_idx idx line hidx]
  · intro j _ hj
    rw [scatter_zero idx line hidx j fun k hk => hj (Finset.mem_image.mpr ⟨k, Finset.mem_univ _, hk⟩),
      zero_mul]

/-! ## Lines -/

theorem new_default_total {q : ℕ} (x : Fin q → ℝ) : ∃ L, LagrangeApproximation.new x = .ok L := by
  rcases Nat.eq_zero_or_pos q with rfl | hq
  · have hu : npUniqueSize x = 0 := by simp [npUniqueSize]
    unfold LagrangeApproximation.new
    have hw : ∃ w, computeWeights "AUTO" "MAX" (npUnique x) = .ok w := by
      unfold computeWeights
      rw [if_pos rfl, if_neg]
      · exact ⟨_, rfl⟩
      · rintro ⟨i, -⟩
        rw [hu] at i
        exact i.elim0
    obtain ⟨w, hw⟩ := hw
    simp only [bind, Except.bind, pure, Except.pure, hw, checkFValues, scaleW]
    split_ifs <;> simp_all
  · exact C01_constructor_total hq x _ _ _ _ ⟨by simp, by simp, by simp, by simp⟩

/-- The line is exact at 0 for the stored points. -/
def LineOK (l : LastLine) : Prop :=
  ∀ p : ℝ[X], p.degree < l.size → ∑ k, l.line k * p.eval (l.points k) = p.eval 0

theorem sparseLine_spec {n : ℕ} (last : Option LastLine) (s : Stencil n) (hs : StrictMono s.points)
    (hl : ∀ l, last = some l → LineOK l) :
    ∃ l, sparseLine last s = .ok l ∧ LineOK l ∧ ∃ h : s.size = l.size,
      ((∀ k, l.points (Fin.cast h k) = s.points k) ∨
        (last = some l ∧ ∀ k, npIsClose (s.points k) (l.points (Fin.cast h k)))) := by
  unfold sparseLine
  split
  · rename_i l hl'
    rcases last with _ | l0
    · cases hl'
    · simp only [Option.bind_some] at hl'
      split_ifs at hl' with hc
      cases hl'
      obtain ⟨h, hc⟩ := hc
      exact ⟨l, rfl, hl _ rfl, h, Or.inr ⟨rfl, hc⟩⟩
  · obtain ⟨L, hL⟩ := new_default_total s.points
    rw [hL]
    refine ⟨_, rfl, ?_, rfl, Or.inl fun k => rfl⟩
    intro p hp
    have := congrFun (C01_interpolation_exact s.points hs _ _ _ _ _ (by simp) L hL
      (fun _ : Fin 1 => 0) p hp) 0
    exact this

/-- The loop: every row comes from a line that is exact for the points of its own stencil, or for those of
an earlier stencil that is close to it. -/
theorem sparseLoop_spec {n : ℕ} (ss : List (Stencil n)) (last : Option LastLine) (prev : List (Stencil n))
    (hs : ∀ s ∈ ss, StrictMono s.points)
    (hl : ∀ l, last = some l → LineOK l ∧ ∃ s' ∈ prev, ∃ h : s'.size = l.size,
      ∀ k, l.points (Fin.cast h k) = s'.points k) :
    ∃ rows, sparseLoop ss last = .ok rows ∧ rows.length = ss.length ∧
      ∀ i (hi : i < ss.length), ∃ (z line : Fin ss[i].size → ℝ), rows[i]? = some (scatter ss[i].idx line) ∧
        (∀ p : ℝ[X], p.degree < ss[i].size → ∑ k, line k * p.eval (z k) = p.eval 0) ∧
        (z = ss[i].points ∨ ((∀ k, npIsClose (ss[i].points k) (z k)) ∧ ∃ s' ∈ prev ++ ss.take i,
          ∃ h : ss[i].size = s'.size, ∀ k, z k = s'.points (Fin.cast h k))) := by
  induction ss generalizing last prev with
  | nil => exact ⟨[], rfl, rfl, fun i hi => absurd hi (by simp)⟩
  | cons s rest ih =>
    obtain ⟨l, h1, h2, h, h3⟩ := sparseLine_spec last s (hs s (by simp)) fun l hl' => (hl l hl').1
    have hstored : ∃ s' ∈ prev ++ [s], ∃ h : s'.size = l.size, ∀ k, l.points (Fin.cast h k) = s'.points k := by
      rcases h3 with h3 | ⟨h3, -⟩
      · exact ⟨s, by simp, h, h3⟩
      · obtain ⟨s', hs', h', hp⟩ := (hl l h3).2
        exact ⟨s', by simp [hs'], h', hp⟩
    obtain ⟨rows, hr1, hr2, hr3⟩ := ih (some l) (prev ++ [s]) (fun s' hs' => hs s' (by simp [hs']))
      (by rintro l' hl'; cases hl'; exact ⟨h2, hstored⟩)
    refine ⟨scatter s.idx (fun k => l.line (Fin.cast h k)) :: rows, ?_, by simp [hr2], ?_⟩
    · simp only [sparseLoop, bind, Except.bind, h1, hr1, h, dif_pos]
      rfl
    · intro i hi
      rcases i with _ | i
      · refine ⟨fun k => l.points (Fin.cast h k), fun k => l.line (Fin.cast h k), rfl, ?_, ?_⟩
        · intro p hp
          have := h2 p (by rw [← h]; exact hp)
          rw [← this]
          exact Fintype.sum_equiv (finCongr h) _ _ fun k => rfl
        · rcases h3 with h3 | ⟨hlast, h3⟩
          · exact Or.inl (funext h3)
          · obtain ⟨s', hs', h', hp⟩ := (hl l hlast).2
            refine Or.inr ⟨h3, s', by simp [hs'], h.trans h'.symm, fun k => ?_⟩
            have := hp (Fin.cast (h.trans h'.symm) k)
            exact this
      · obtain ⟨z, line, q1, q2, q3⟩ := hr3 i (by simpa using hi)
        refine ⟨z, line, by simpa using q1, q2, ?_⟩
        rcases q3 with q3 | ⟨q3, s', hs', q4⟩
        · exact Or.inl q3
        · refine Or.inr ⟨q3, s', ?_, q4⟩
          simpa [List.append_assoc] using hs'

/-- What is common to both kinds of stencils: `w i j` is the position used for the input point `j` seen
from the output point `i`. -/
theorem sparse_rows {n m : ℕ} (st : Fin m → Stencil n) (out : Fin m → ℝ) (w : Fin m → Fin n → ℝ) (q : ℕ)
    (hsize : ∀ i, (st i).size = q) (hmono : ∀ i, StrictMono (st i).points)
    (hinj : ∀ i, Function.Injective (st i).idx) (hw : ∀ i k, (st i).points k = w i ((st i).idx k) - out i)
    (rows : List (Fin n → ℝ)) (hrows : sparseLoop (List.ofFn st) none = .ok rows) (i : Fin m) :
    (∀ j, (∀ k, (st i).idx k ≠ j) → rows.getD i 0 j = 0) ∧
    ∃ z : Fin n → ℝ, (∀ k, npIsClose (w i ((st i).idx k) - out i) (z ((st i).idx k) - out i)) ∧
      (∀ p : ℝ[X], p.degree < q → ∑ j, rows.getD i 0 j * p.eval (z j) = p.eval (out i)) ∧
      ((∀ k, z ((st i).idx k) = w i ((st i).idx k)) ∨ ∃ i' < i, ∀ k, ∃ k',
        z ((st i).idx k) - out i = w i' ((st i').idx k') - out i') := by
  obtain ⟨rows', h1, h2, h3⟩ := sparseLoop_spec (List.ofFn st) none [] (by
    intro s hs
    obtain ⟨i, rfl⟩ := List.mem_ofFn.mp hs
    exact hmono i) (by simp)
  rw [hrows] at h1
  cases h1
  obtain ⟨z, line, q1, q2, q3⟩ := h3 i (by simp)
  have hst : (List.ofFn st)[(i : ℕ)]'(by simp) = st i := by simp
  generalize hS : (List.ofFn st)[(i : ℕ)]'(by simp) = S at z line q1 q2 q3 hst
  subst hst
  have hrow : rows.getD i 0 = scatter (st i).idx line := by simp [q1]
  rw [hrow]
  refine ⟨fun j hj => scatter_zero _ _ (hinj i) j hj, ?_⟩
  classical
  let zz : Fin n → ℝ := fun j => if h : ∃ k, (st i).idx k = j then z h.choose + out i else 0
  have hzz : ∀ k, zz ((st i).idx k) = z k + out i := fun k => by
    have hex : ∃ k', (st i).idx k' = (st i).idx k := ⟨k, rfl⟩
    simp only [zz, dif_pos hex]
    rw [hinj i hex.choose_spec]
  refine ⟨zz, fun k => ?_, fun p hp => ?_, ?_⟩
  · rw [hzz, ← hw, add_sub_cancel_right]
    rcases q3 with rfl | ⟨q3, -⟩
    · unfold npIsClose
      rw [sub_self, abs_zero]
      positivity
    · exact q3 k
  · rw [scatter_sum _ _ (hinj i)]
    have := q2 (p.comp (X + C (out i))) (by
      rw [hsize i]
      by_cases hp0 : p = 0
      · simp [hp0]
      · refine lt_of_le_of_lt ?_ hp
        rw [degree_eq_natDegree hp0]
        refine (degree_le_natDegree).trans ?_
        rw [natDegree_comp]
        simp)
    simp only [eval_comp, eval_add, eval_X, eval_C, zero_add] at this
    rw [← this]
    exact Finset.sum_congr rfl fun k _ => by rw [hzz]
  · rcases q3 with rfl | ⟨-, s', hs', h', hz⟩
    · refine Or.inl fun k => ?_
      rw [hzz, hw, sub_add_cancel]
    · refine Or.inr ?_
      rw [List.nil_append, List.mem_take_iff_getElem] at hs'
      obtain ⟨i', hi', rfl⟩ := hs'
      simp only [List.length_ofFn] at hi'
      have hi'm : i' < m := by omega
      have he : (List.ofFn st)[i']'(by simpa using hi'm) = st ⟨i', hi'm⟩ := by simp
      refine ⟨⟨i', hi'm⟩, by rw [Fin.lt_def]; simp; omega, fun k => ?_⟩
      generalize (List.ofFn st)[i']'(by simpa using hi'm) = S' at h' hz he
      subst he
      exact ⟨Fin.cast h' k, by rw [hzz, hz, hw, add_sub_cancel_right]⟩

/-! ## Not periodic -/

/-- C12: more points than there are is an `AssertionError`. -/
theorem C12_order_error (sort : ArgSort) {n m : ℕ} (inPoints : Fin n → ℝ) (outPoints : Fin m → ℝ)
    (order : ℤ) (period : ℝ) (h : (n : ℤ) < order) :
    getSparseInterpolationMatrix sort inPoints outPoints order period = .error .assertionError := by
  unfold getSparseInterpolationMatrix
  simp only [bind, Except.bind, if_pos h]
  rfl

/-- Instance: order four with three points. -/
example (sort : ArgSort) : getSparseInterpolationMatrix sort ![(0 : ℝ), 1, 2] ![(1 / 2 : ℝ)] 4 = .error .assertionError :=
  C12_order_error sort _ _ 4 (-1) (by norm_num)

theorem sparse_ok (sort : ArgSort) {n m : ℕ} (inPoints : Fin n → ℝ) (outPoints : Fin m → ℝ)
    (order : ℕ) (ho : order ≤ n) (period : ℝ) (rows : List (Fin n → ℝ)) (st : Fin m → Stencil n)
    (hst : ∀ i, st i = if period > 0 then stencilPeriodic sort inPoints order period (outPoints i)
      else stencilPlain sort inPoints order (outPoints i))
    (hrows : sparseLoop (List.ofFn st) none = .ok rows) :
    getSparseInterpolationMatrix sort inPoints outPoints order period =
      .ok (Matrix.of fun i j => rows.getD i 0 j) := by
  obtain rfl : st = fun i => if period > 0 then stencilPeriodic sort inPoints order period (outPoints i)
      else stencilPlain sort inPoints order (outPoints i) := funext hst
  unfold getSparseInterpolationMatrix
  have h : ¬ (n : ℤ) < (order : ℤ) := by omega
  simp only [bind, Except.bind, if_neg h, pure, Except.pure]
  rw [hrows]

theorem stencilPlain_facts (sort : ArgSort) {n : ℕ} (inPoints : Fin n → ℝ) (hinc : StrictMono inPoints)
    (order : ℕ) (ho : order ≤ n) (out : ℝ) :
    (stencilPlain sort inPoints order out).size = order ∧
    StrictMono (stencilPlain sort inPoints order out).points ∧
    Function.Injective (stencilPlain sort inPoints order out).idx ∧
    (∀ k, (stencilPlain sort inPoints order out).points k =
      inPoints ((stencilPlain sort inPoints order out).idx k) - out) ∧
    ∀ j, (∃ k, (stencilPlain sort inPoints order out).idx k = j) ↔
      j ∈ closestSet sort (fun j => |inPoints j - out|) order := by
  refine ⟨closestSet_card sort _ order ho, fun a b hab => ?_, fun a b hab => ?_, fun k => rfl, fun j => ?_⟩
  · exact sub_lt_sub_right (hinc ((Finset.orderEmbOfFin _ rfl).strictMono hab)) _
  · exact (Finset.orderEmbOfFin _ rfl).injective hab
  · have := Finset.range_orderEmbOfFin (closestSet sort (fun j => |inPoints j - out|) order) rfl
    rw [← Finset.mem_coe, ← this]
    rfl

/-- C12: for increasing input points every row has its entries on `order` input points nearest to the
output point, and is exact for polynomials of degree `< order` after moving these points by no more than
the tolerance of `np.allclose`; without moving them in the first row, and in every row whose stencil is not
taken from an earlier output point. -/
theorem C12_rows (sort : ArgSort) {n m : ℕ} (inPoints : Fin n → ℝ) (hinc : StrictMono inPoints)
    (outPoints : Fin m → ℝ) (order : ℕ) (ho : order ≤ n) (period : ℝ) (hper : period ≤ 0) :
    ∃ A, getSparseInterpolationMatrix sort inPoints outPoints order period = .ok A ∧
      ∀ i, ∃ S : Finset (Fin n), S.card = order ∧
        (∀ a ∈ S, ∀ b ∉ S, |inPoints a - outPoints i| ≤ |inPoints b - outPoints i|) ∧
        (∀ j ∉ S, A i j = 0) ∧
        ∃ z : Fin n → ℝ, (∀ j ∈ S, |inPoints j - z j| ≤ 1 / 10 ^ 8 + 1 / 10 ^ 5 * |z j - outPoints i|) ∧
          (∀ p : ℝ[X], p.degree < order → ∑ j, A i j * p.eval (z j) = p.eval (outPoints i)) ∧
          ((∀ j ∈ S, z j = inPoints j) ∨ ∃ i' < i, ∀ j ∈ S, ∃ j',
            z j - outPoints i = inPoints j' - outPoints i') := by
  set st : Fin m → Stencil n := fun i => stencilPlain sort inPoints order (outPoints i) with hst
  have facts := fun i => stencilPlain_facts sort inPoints hinc order ho (outPoints i)
  obtain ⟨rows, hrows, -⟩ := sparseLoop_spec (List.ofFn st) none [] (by
    intro s hs
    obtain ⟨i, rfl⟩ := List.mem_ofFn.mp hs
    exact (facts i).2.1) (by simp)
  refine ⟨_, sparse_ok sort inPoints outPoints order ho period rows st
    (fun i => by rw [if_neg (not_lt.mpr hper)]) hrows, fun i => ?_⟩
  obtain ⟨h1, z, h2, h3, h4⟩ := sparse_rows st outPoints (fun _ j => inPoints j) order (fun i => (facts i).1)
    (fun i => (facts i).2.1) (fun i => (facts i).2.2.1) (fun i k => (facts i).2.2.2.1 k) rows hrows i
  refine ⟨closestSet sort (fun j => |inPoints j - outPoints i|) order, closestSet_card sort _ order ho,
    fun a ha b hb => closestSet_nearest sort _ order a b ha hb, fun j hj => ?_, z, fun j hj => ?_, h3, ?_⟩
  · exact h1 j fun k hk => hj (((facts i).2.2.2.2 j).mp ⟨k, hk⟩)
  · obtain ⟨k, rfl⟩ := ((facts i).2.2.2.2 j).mpr hj
    have := h2 k
    unfold npIsClose at this
    rwa [sub_sub_sub_cancel_right] at this
  · rcases h4 with h4 | ⟨i', hi', h4⟩
    · refine Or.inl fun j hj => ?_
      obtain ⟨k, rfl⟩ := ((facts i).2.2.2.2 j).mpr hj
      exact h4 k
    · refine Or.inr ⟨i', hi', fun j hj => ?_⟩
      obtain ⟨k, rfl⟩ := ((facts i).2.2.2.2 j).mpr hj
      obtain ⟨k', hk'⟩ := h4 k
      exact ⟨_, hk'⟩

/-- C12: rows are exact when the distances between input and output points are either equal or not close. -/
theorem C12_exact (sort : ArgSort) {n m : ℕ} (inPoints : Fin n → ℝ) (hinc : StrictMono inPoints)
    (outPoints : Fin m → ℝ) (order : ℕ) (ho : order ≤ n) (period : ℝ) (hper : period ≤ 0) (i : Fin m)
    (hclose : ∀ i' < i, ∀ j j', |(inPoints j - outPoints i) - (inPoints j' - outPoints i')| ≤
        1 / 10 ^ 8 + 1 / 10 ^ 5 * |inPoints j' - outPoints i'| →
      inPoints j - outPoints i = inPoints j' - outPoints i')
    (A : Matrix (Fin m) (Fin n) ℝ)
    (hA : getSparseInterpolationMatrix sort inPoints outPoints order period = .ok A) (p : ℝ[X])
    (hp : p.degree < order) : ∑ j, A i j * p.eval (inPoints j) = p.eval (outPoints i) := by
  obtain ⟨A', hA', h⟩ := C12_rows sort inPoints hinc outPoints order ho period hper
  rw [hA] at hA'
  cases hA'
  obtain ⟨S, -, -, h0, z, hz, he, hc⟩ := h i
  rw [← he p hp]
  refine Finset.sum_congr rfl fun j _ => ?_
  by_cases hj : j ∈ S
  · congr 2
    rcases hc with hc | ⟨i', hi', hc⟩
    · exact (hc j hj).symm
    · obtain ⟨j', hj'⟩ := hc j hj
      have := hclose i' hi' j j' (by
        rw [← hj', sub_sub_sub_cancel_right]
        exact hz j hj)
      linarith
  · rw [h0 j hj, zero_mul, zero_mul]

/-- Any `ArgSort` there is: sorting is possible. -/
theorem exists_argSort : Nonempty ArgSort :=
  ⟨⟨fun v => Tuple.sort v, fun v => Tuple.monotone_sort v⟩⟩

/-- C12, instance: an equidistant grid and the points halfway. -/
example (sort : ArgSort) : ∃ A, getSparseInterpolationMatrix sort (fun j : Fin 5 => (j : ℝ))
      (fun i : Fin 4 => (i : ℝ) + 1 / 2) 2 = .ok A ∧
    ∀ i, ∑ j, A i j * ((X + 7 : ℝ[X]).eval (j : ℝ)) = (X + 7 : ℝ[X]).eval ((i : ℝ) + 1 / 2) := by
  have hinc : StrictMono (fun j : Fin 5 => (j : ℝ)) := fun a b h => Nat.cast_lt.mpr h
  obtain ⟨A, hA, -⟩ := C12_rows sort _ hinc (fun i : Fin 4 => (i : ℝ) + 1 / 2) 2 (by norm_num) (-1)
    (by norm_num)
  refine ⟨A, hA, fun i => ?_⟩
  refine C12_exact sort _ hinc _ 2 (by norm_num) (-1) (by norm_num) i ?_ A hA _ ?_
  · intro i' _ j j' h
    have e : ((j : ℝ) - (i + 1 / 2)) - ((j' : ℝ) - (i' + 1 / 2)) = (((j : ℤ) - i - j' + i' : ℤ) : ℝ) := by
      push_cast; ring
    have hb : |((j' : ℝ) - (i' + 1 / 2))| ≤ 10 := by
      have h1 : (j' : ℝ) < 5 := by exact_mod_cast j'.2
      have h2 : (i' : ℝ) < 4 := by exact_mod_cast i'.2
      have h3 : (0:ℝ) ≤ j' := by positivity
      have h4 : (0:ℝ) ≤ i' := by positivity
      rw [abs_le]
      constructor <;> linarith
    have hz : ((j : ℤ) - i - j' + i' : ℤ) = 0 := by
      rw [e] at h
      by_contra hne
      have h1 : (1:ℝ) ≤ |(((j : ℤ) - i - j' + i' : ℤ) : ℝ)| := by
        rw [← Int.cast_abs]
        exact_mod_cast Int.one_le_abs hne
      linarith
    have := e.trans (by rw [hz, Int.cast_zero])
    linarith
  · refine lt_of_le_of_lt (degree_add_le _ _) ?_
    rw [show (7 : ℝ[X]) = C 7 from rfl, degree_X]
    refine max_lt (by norm_num) (lt_of_le_of_lt degree_C_le (by norm_num))

theorem stencilPlain_all (sort : ArgSort) {n : ℕ} (inPoints : Fin n → ℝ) (out : ℝ) :
    stencilPlain sort inPoints n out = { size := (Finset.univ : Finset (Fin n)).card, points := fun k => inPoints ((Finset.univ : Finset (Fin n)).orderEmbOfFin rfl k) - out, idx := fun k => (Finset.univ : Finset (Fin n)).orderEmbOfFin rfl k } := by
  have : closestSet sort (fun j => |inPoints j - out|) n = Finset.univ := by
    rw [← Finset.card_eq_iff_eq_univ, closestSet_card sort _ n le_rfl, Fintype.card_fin]
  have key : ∀ S : Finset (Fin n), S = Finset.univ → (({ size := S.card, points := fun k => inPoints (S.orderEmbOfFin rfl k) - out, idx := fun k => S.orderEmbOfFin rfl k }) : Stencil n) = { size := (Finset.univ : Finset (Fin n)).card, points := fun k => inPoints ((Finset.univ : Finset (Fin n)).orderEmbOfFin rfl k) - out, idx := fun k => (Finset.univ : Finset (Fin n)).orderEmbOfFin rfl k } := by
    rintro _ rfl
    rfl
  exact key _ this

/-- C12, finding: a negative order is not refused: `order=-k` interpolates with the `n - k` closest points. -/
theorem C12_negative_order_fails (sort : ArgSort) {n m : ℕ} (inPoints : Fin n → ℝ) (outPoints : Fin m → ℝ) (k : ℕ) (hk : 0 < k)
    (hkn : k ≤ n) (period : ℝ) (hper : period ≤ 0) :
    getSparseInterpolationMatrix sort inPoints outPoints (-k) period =
      getSparseInterpolationMatrix sort inPoints outPoints (n - k : ℕ) period := by
  have h1 : sliceLen n (-k) = sliceLen n (n - k : ℕ) := by
    unfold sliceLen
    rw [if_neg (by omega), if_pos (by omega)]
    omega
  have h2 : ∀ out, stencilPlain sort inPoints (-k) out = stencilPlain sort inPoints (n - k : ℕ) out := by
    intro out
    have : closestSet sort (fun j => |inPoints j - out|) (-k) = closestSet sort (fun j => |inPoints j - out|) (n - k : ℕ) := by
      unfold closestSet
      rw [h1]
    have key : ∀ S T : Finset (Fin n), S = T → (({ size := S.card, points := fun k => inPoints (S.orderEmbOfFin rfl k) - out, idx := fun k => S.orderEmbOfFin rfl k }) : Stencil n) = { size := T.card, points := fun k => inPoints (T.orderEmbOfFin rfl k) - out, idx := fun k => T.orderEmbOfFin rfl k } := by
      rintro S _ rfl
      rfl
    exact key _ _ this
  unfold getSparseInterpolationMatrix
  simp only [h2, not_lt.2 hper, if_false, gt_iff_lt]
  rw [if_neg (by omega), if_neg (by omega)]

example (sort : ArgSort) : ∃ A, getSparseInterpolationMatrix sort ![(0 : ℝ), 1, 2] ![(1 / 2 : ℝ)] (-1) = .ok A ∧
    ∑ j, A 0 j * ![(0 : ℝ), 1, 2] j = 1 / 2 := by
  have hinc : StrictMono ![(0 : ℝ), 1, 2] := by
    refine Fin.strictMono_iff_lt_succ.mpr fun i => ?_
    fin_cases i <;> simp
  have h := C12_negative_order_fails sort ![(0 : ℝ), 1, 2] ![(1 / 2 : ℝ)] 1 one_pos (by norm_num) (-1) (by norm_num)
  obtain ⟨A, hA, -⟩ := C12_rows sort ![(0 : ℝ), 1, 2] hinc ![(1 / 2 : ℝ)] 2 (by norm_num) (-1) (by norm_num)
  refine ⟨A, by simpa using h.trans hA, ?_⟩
  have := C12_exact sort ![(0 : ℝ), 1, 2] hinc ![(1 / 2 : ℝ)] 2 (by norm_num) (-1) (by norm_num) 0 (by simp) A hA X
    (by rw [degree_X]; norm_num)
  simpa using this

/-- C12, finding: two output points `0.3` and `0.300001` between the input points 0 and 1 get the same row,
so that the function `x` has the same value at both. -/
theorem C12_reuse_fails (sort : ArgSort) :
    ∃ A, getSparseInterpolationMatrix sort ![(0:ℝ), 1] ![(3:ℝ) / 10, 300001 / 1000000] 2 = .ok A ∧
      A 0 = A 1 ∧ ∑ j, A 1 j * ![(0:ℝ), 1] j ≠ 300001 / 1000000 := by
  have hinc : StrictMono ![(0:ℝ), 1] := by
    refine Fin.strictMono_iff_lt_succ.mpr fun i => ?_
    fin_cases i
    simp
  obtain ⟨A, hA, hrow⟩ := C12_rows sort ![(0:ℝ), 1] hinc ![(3:ℝ) / 10, 300001 / 1000000] 2 le_rfl (-1)
    (by norm_num)
  have h01 : A 0 = A 1 := by
    let u : ℝ → Stencil 2 := fun out => { size := (Finset.univ : Finset (Fin 2)).card, points := fun k => ![(0:ℝ), 1] ((Finset.univ : Finset (Fin 2)).orderEmbOfFin rfl k) - out, idx := fun k => (Finset.univ : Finset (Fin 2)).orderEmbOfFin rfl k }
    obtain ⟨L, hL⟩ := new_default_total (u (3 / 10)).points
    let l : LastLine := { size := (u (3 / 10)).size, points := (u (3 / 10)).points, line := L.getInterpolationMatrix (fun _ : Fin 1 => 0) 0 }
    have e0 : sparseLine none (u (3 / 10)) = .ok l := by
      simp only [sparseLine, Option.bind_none, hL, bind, Except.bind, pure, Except.pure]
      rfl
    have e1 : sparseLine (some l) (u (300001 / 1000000)) = .ok l := by
      have : ∃ h : (u (300001 / 1000000)).size = l.size,
          npAllClose (u (300001 / 1000000)).points (fun k => l.points (Fin.cast h k)) := by
        refine ⟨rfl, fun k => ?_⟩
        change |(![(0:ℝ), 1] ((Finset.univ : Finset (Fin 2)).orderEmbOfFin rfl k) - 300001 / 1000000) -
          (![(0:ℝ), 1] ((Finset.univ : Finset (Fin 2)).orderEmbOfFin rfl k) - 3 / 10)| ≤ 1 / 10 ^ 8 +
          1 / 10 ^ 5 * |![(0:ℝ), 1] ((Finset.univ : Finset (Fin 2)).orderEmbOfFin rfl k) - 3 / 10|
        generalize (Finset.univ : Finset (Fin 2)).orderEmbOfFin rfl k = j
        fin_cases j <;> norm_num [abs_of_pos, abs_of_neg]
      unfold sparseLine
      simp only [Option.bind_some, if_pos this]
    have hrows : sparseLoop (List.ofFn fun i : Fin 2 => u (![(3:ℝ) / 10, 300001 / 1000000] i)) none =
        .ok [scatter (u 0).idx l.line, scatter (u 0).idx l.line] := by
      have hlist : (List.ofFn fun i : Fin 2 => u (![(3:ℝ) / 10, 300001 / 1000000] i)) =
          [u (3 / 10), u (300001 / 1000000)] := by simp [List.ofFn_succ]
      rw [hlist]
      simp only [sparseLoop, bind, Except.bind, e0, e1]
      rfl
    have := sparse_ok sort ![(0:ℝ), 1] ![(3:ℝ) / 10, 300001 / 1000000] 2 le_rfl (-1) _
      (fun i : Fin 2 => u (![(3:ℝ) / 10, 300001 / 1000000] i)) (fun i => by
        rw [if_neg (by norm_num)]
        exact (stencilPlain_all sort ![(0:ℝ), 1] _).symm) hrows
    rw [hA] at this
    cases this
    rfl
  refine ⟨A, hA, h01, ?_⟩
  rw [← h01]
  obtain ⟨S, -, -, h0, z, -, he, hc⟩ := hrow 0
  have hx := he X (by rw [degree_X]; norm_num)
  have hzin : ∀ j ∈ S, z j = ![(0:ℝ), 1] j := by
    rcases hc with hc | ⟨i', hi', -⟩
    · exact hc
    · exact absurd hi' (by simp)
  have : ∑ j, A 0 j * ![(0:ℝ), 1] j = ∑ j, A 0 j * (X : ℝ[X]).eval (z j) :=
    Finset.sum_congr rfl fun j _ => by
      by_cases hj : j ∈ S
      · rw [eval_X, hzin j hj]
      · rw [h0 j hj, zero_mul, zero_mul]
  rw [this, hx, eval_X]
  norm_num

/-! ## Periodic -/

/-- The number of periods by which `path[j]` is shifted. -/
def shiftOf (s : Fin 3) : ℤ := if s = 0 then 1 else if s = 1 then -1 else 0

theorem shiftOf_surj (c : ℤ) (h1 : -1 ≤ c) (h2 : c ≤ 1) : ∃ s, shiftOf s = c := by
  have : c = -1 ∨ c = 0 ∨ c = 1 := by omega
  rcases this with rfl | rfl | rfl
  · exact ⟨1, rfl⟩
  · exact ⟨2, rfl⟩
  · exact ⟨0, rfl⟩

theorem shiftOf_inj : Function.Injective shiftOf := by decide

theorem pyMod_bounds {P : ℝ} (hP : 0 < P) (x : ℝ) : 0 ≤ pyMod x P ∧ pyMod x P < P := by
  unfold pyMod
  have h1 := Int.floor_le (x / P)
  have h2 := Int.lt_floor_add_one (x / P)
  rw [le_div_iff₀ hP] at h1
  rw [div_lt_iff₀ hP] at h2
  constructor <;> nlinarith

/-- Splitting of an index of `path`. -/
theorem path_index {n : ℕ} (j : Fin (3 * n)) : ∃ (s : Fin 3) (l : Fin n), (j : ℕ) = s * n + l ∧ (j : ℕ) % n = l := by
  have hn : 0 < n := by have := j.2; omega
  refine ⟨⟨j / n, by rw [Nat.div_lt_iff_lt_mul hn]; exact j.2⟩, ⟨j % n, Nat.mod_lt _ hn⟩, ?_, rfl⟩
  simp only
  exact (Nat.div_add_mod' _ _).symm

theorem periodicPath_eq {n : ℕ} (inPoints : Fin n → ℝ) (P out : ℝ) (j : Fin (3 * n)) (s : Fin 3) (l : Fin n)
    (h : (j : ℕ) = s * n + l) :
    periodicPath inPoints P out j = inPoints l + shiftOf s * P - pyMod out P := by
  have hm : (j : ℕ) % n = l := by
    rw [h, Nat.mul_add_mod', Nat.mod_eq_of_lt l.2]
  unfold periodicPath
  have e : (⟨(j : ℕ) % n, Nat.mod_lt _ (by have := j.2; omega)⟩ : Fin n) = l := Fin.ext hm
  simp only [e]
  have hl := l.2
  fin_cases s
  · rw [if_pos (by rw [h]; simp)]
    simp [shiftOf]
  · rw [if_neg (by rw [h]; simp), if_pos (by rw [h]; simp; omega)]
    simp [shiftOf]
    ring
  · rw [if_neg (by rw [h]; simp; omega), if_neg (by rw [h]; simp)]
    simp [shiftOf]

section
variable {n : ℕ} (inPoints : Fin n → ℝ) (hinc : StrictMono inPoints) (P : ℝ) (hP : 0 < P)
  (hin : ∀ j, 0 ≤ inPoints j ∧ inPoints j < P)
include hinc hP hin

theorem image_inj {l l' : Fin n} {c c' : ℤ} (h : inPoints l + c * P = inPoints l' + c' * P) :
    l = l' ∧ c = c' := by
  have h1 := hin l
  have h2 := hin l'
  have hc : c = c' := by
    by_contra hne
    have : (1:ℝ) ≤ |((c - c' : ℤ) : ℝ)| := by
      rw [← Int.cast_abs]
      exact_mod_cast Int.one_le_abs (sub_ne_zero.mpr hne)
    have e : ((c - c' : ℤ) : ℝ) * P = inPoints l' - inPoints l := by push_cast; linarith
    have e2 : |((c - c' : ℤ) : ℝ)| * P = |inPoints l' - inPoints l| := by rw [← e, abs_mul, abs_of_pos hP]
    have : |inPoints l' - inPoints l| < P := by rw [abs_lt]; constructor <;> linarith
    nlinarith
  subst hc
  exact ⟨hinc.injective (by linarith), rfl⟩

omit hinc in
theorem near_image (out : ℝ) (l : Fin n) :
    ∃ j : Fin (3 * n), (j : ℕ) % n = l ∧ |periodicPath inPoints P out j| ≤ P / 2 := by
  have ho := pyMod_bounds hP out
  have hl := hin l
  have : ∃ s, |inPoints l + shiftOf s * P - pyMod out P| ≤ P / 2 := by
    by_cases h1 : inPoints l - pyMod out P < -(P / 2)
    · refine ⟨0, ?_⟩
      simp only [shiftOf, if_true, Int.cast_one, one_mul]
      rw [abs_le]; constructor <;> linarith
    · by_cases h2 : P / 2 < inPoints l - pyMod out P
      · refine ⟨1, ?_⟩
        simp only [shiftOf]
        norm_num
        rw [abs_le]; constructor <;> linarith
      · refine ⟨2, ?_⟩
        have h0 : shiftOf 2 = 0 := by decide
        rw [h0, Int.cast_zero, zero_mul, add_zero]
        rw [abs_le]; constructor <;> linarith
  obtain ⟨s, hs⟩ := this
  have hlt : (s : ℕ) * n + l < 3 * n := by
    have h1 := s.2
    have h2 := l.2
    nlinarith
  refine ⟨⟨s * n + l, hlt⟩, by simp [Nat.mod_eq_of_lt l.2], ?_⟩
  rw [periodicPath_eq inPoints P out _ s l rfl]
  exact hs

/-- The `order` closest images belong to different input points. -/
theorem closest_residues (sort : ArgSort) (out : ℝ) (order : ℕ) (ho : order ≤ n) (j j' : Fin (3 * n))
    (hj : j ∈ closestSet sort (fun j => |periodicPath inPoints P out j|) order)
    (hj' : j' ∈ closestSet sort (fun j => |periodicPath inPoints P out j|) order)
    (hres : (j : ℕ) % n = (j' : ℕ) % n) : j = j' := by
  by_contra hne
  set S := closestSet sort (fun j => |periodicPath inPoints P out j|) order with hS
  have hn : 0 < n := by have := j.2; omega
  let res : Fin (3 * n) → Fin n := fun j => ⟨j % n, Nat.mod_lt _ hn⟩
  have hcard : (S.image res).card < n := by
    have h1 : (S.image res).card < S.card := by
      refine lt_of_le_of_ne Finset.card_image_le fun h => ?_
      have := Finset.card_image_iff.mp h
      exact hne (this hj hj' (Fin.ext hres))
    rw [closestSet_card sort _ order (by omega)] at h1
    omega
  obtain ⟨l, hl⟩ : ∃ l, l ∉ S.image res := by
    by_contra hall
    push Not at hall
    have : S.image res = Finset.univ := Finset.eq_univ_of_forall hall
    rw [this, Finset.card_univ, Fintype.card_fin] at hcard
    exact lt_irrefl _ hcard
  obtain ⟨jl, hjl, hd⟩ := near_image inPoints P hP hin out l
  have hjlS : jl ∉ S := fun h => hl (Finset.mem_image.mpr ⟨jl, h, Fin.ext hjl⟩)
  have d1 := closestSet_nearest sort _ order j jl hj hjlS
  have d2 := closestSet_nearest sort _ order j' jl hj' hjlS
  obtain ⟨s1, l1, e1, r1⟩ := path_index j
  obtain ⟨s2, l2, e2, r2⟩ := path_index j'
  obtain ⟨s3, l3, e3, r3⟩ := path_index jl
  rw [periodicPath_eq inPoints P out j s1 l1 e1, periodicPath_eq inPoints P out jl s3 l3 e3] at d1
  rw [periodicPath_eq inPoints P out j' s2 l2 e2, periodicPath_eq inPoints P out jl s3 l3 e3] at d2
  rw [periodicPath_eq inPoints P out jl s3 l3 e3] at hd
  have h12 : l1 = l2 := Fin.ext (by rw [← r1, ← r2, hres])
  subst h12
  have hs : shiftOf s1 ≠ shiftOf s2 := fun h => hne (Fin.ext (by rw [e1, e2, shiftOf_inj h]))
  have hs1 : (1:ℝ) ≤ |((shiftOf s1 - shiftOf s2 : ℤ) : ℝ)| := by
    rw [← Int.cast_abs]
    exact_mod_cast Int.one_le_abs (sub_ne_zero.mpr hs)
  have hdiff : P ≤ |(inPoints l1 + shiftOf s1 * P - pyMod out P) - (inPoints l1 + shiftOf s2 * P - pyMod out P)| := by
    have : (inPoints l1 + shiftOf s1 * P - pyMod out P) - (inPoints l1 + shiftOf s2 * P - pyMod out P) =
        ((shiftOf s1 - shiftOf s2 : ℤ) : ℝ) * P := by push_cast; ring
    rw [this, abs_mul, abs_of_pos hP]
    nlinarith
  have htri := abs_sub (inPoints l1 + shiftOf s1 * P - pyMod out P) (inPoints l1 + shiftOf s2 * P - pyMod out P)
  have ea : |inPoints l1 + shiftOf s1 * P - pyMod out P| = P / 2 := by linarith
  have eb : |inPoints l1 + shiftOf s2 * P - pyMod out P| = P / 2 := by linarith
  have ec : |inPoints l3 + shiftOf s3 * P - pyMod out P| = P / 2 := by linarith
  have hl3 : l3 = l1 := by
    rcases abs_choice (inPoints l1 + shiftOf s1 * P - pyMod out P) with ha | ha <;>
    rcases abs_choice (inPoints l1 + shiftOf s2 * P - pyMod out P) with hb | hb <;>
    rcases abs_choice (inPoints l3 + shiftOf s3 * P - pyMod out P) with hc | hc <;>
    rw [ha] at ea <;> rw [hb] at eb <;> rw [hc] at ec
    all_goals first
      | exact (image_inj inPoints hinc P hP hin (c := shiftOf s3) (c' := shiftOf s1) (by linarith)).1
      | exact (image_inj inPoints hinc P hP hin (c := shiftOf s3) (c' := shiftOf s2) (by linarith)).1
      | skip
    all_goals
      exfalso
      exact hs (image_inj inPoints hinc P hP hin (l := l1) (l' := l1) (c := shiftOf s1) (c' := shiftOf s2)
        (by linarith)).2
  exact hl (Finset.mem_image.mpr ⟨j, hj, Fin.ext (by
    change (j : ℕ) % n = l
    rw [r1, ← hl3, ← r3, hjl])⟩)

/-- The `order` closest images are at most half a period away. -/
theorem closest_half (sort : ArgSort) (out : ℝ) (order : ℕ) (ho : order ≤ n) (j : Fin (3 * n))
    (hj : j ∈ closestSet sort (fun j => |periodicPath inPoints P out j|) order) :
    |periodicPath inPoints P out j| ≤ P / 2 := by
  have hn : 0 < n := by have := j.2; omega
  obtain ⟨j', hj', hd⟩ := near_image inPoints P hP hin out ⟨j % n, Nat.mod_lt _ hn⟩
  by_cases hm : j' ∈ closestSet sort (fun j => |periodicPath inPoints P out j|) order
  · rw [closest_residues inPoints hinc P hP hin sort out order ho j j' hj hm hj'.symm]
    exact hd
  · exact (closestSet_nearest sort _ order j j' hj hm).trans hd

theorem stencilPeriodic_facts (sort : ArgSort) (out : ℝ) (order : ℕ) (ho : order ≤ n) :
    (stencilPeriodic sort inPoints order P out).size = order ∧
    StrictMono (stencilPeriodic sort inPoints order P out).points ∧
    Function.Injective (stencilPeriodic sort inPoints order P out).idx ∧
    (∀ k, ∃ j ∈ closestSet sort (fun j => |periodicPath inPoints P out j|) order,
      (stencilPeriodic sort inPoints order P out).points k = periodicPath inPoints P out j ∧
      (j : ℕ) % n = (stencilPeriodic sort inPoints order P out).idx k) := by
  set S := closestSet sort (fun j => |periodicPath inPoints P out j|) order with hS
  let sorted : Fin S.card → Fin (3 * n) := fun k => S.orderEmbOfFin rfl k
  let values : Fin S.card → ℝ := fun k => periodicPath inPoints P out (sorted k)
  have hsorted : ∀ k, sorted k ∈ S := fun k => Finset.orderEmbOfFin_mem _ _ _
  have hpathinj : ∀ j j' : Fin (3 * n), periodicPath inPoints P out j = periodicPath inPoints P out j' → j = j' := by
    intro j j' h
    obtain ⟨s1, l1, e1, r1⟩ := path_index j
    obtain ⟨s2, l2, e2, r2⟩ := path_index j'
    rw [periodicPath_eq inPoints P out j s1 l1 e1, periodicPath_eq inPoints P out j' s2 l2 e2] at h
    obtain ⟨h1, h2⟩ := image_inj inPoints hinc P hP hin (l := l1) (l' := l2) (c := shiftOf s1)
      (c' := shiftOf s2) (by linarith)
    exact Fin.ext (by rw [e1, e2, h1, shiftOf_inj h2])
  have hvinj : Function.Injective values := fun a b h =>
    (S.orderEmbOfFin rfl).injective (hpathinj _ _ h)
  refine ⟨?_, npUnique_strictMono values, fun a b hab => ?_, fun k => ?_⟩
  · change npUniqueSize values = order
    rw [(npUniqueSize_eq_iff values).mpr hvinj]
    exact closestSet_card sort _ order (by omega)
  · have hab' : (sorted (npUniqueFirst values a) : ℕ) % n = (sorted (npUniqueFirst values b) : ℕ) % n :=
      congrArg Fin.val hab
    have h1 := closest_residues inPoints hinc P hP hin sort out order ho _ _ (hsorted _) (hsorted _) hab'
    have h2 := (S.orderEmbOfFin rfl).injective h1
    have h3 := congrArg values h2
    rw [points_npUniqueFirst values a, points_npUniqueFirst values b] at h3
    exact (npUnique_strictMono values).injective h3
  · exact ⟨sorted (npUniqueFirst values k), hsorted _, (points_npUniqueFirst values k).symm, rfl⟩

end

/-- C12, periodic grids: the points of a row are `order` different input points, each moved by a whole number
of periods (`w`), so that no other image of any input point is nearer; the row is exact for polynomials on
these images, up to the tolerance of `np.allclose` when a stencil is taken again. -/
theorem C12_periodic (sort : ArgSort) {n m : ℕ} (inPoints : Fin n → ℝ) (hinc : StrictMono inPoints)
    (P : ℝ) (hP : 0 < P) (hin : ∀ j, 0 ≤ inPoints j ∧ inPoints j < P)
    (outPoints : Fin m → ℝ) (order : ℕ) (ho : order ≤ n) :
    ∃ A, getSparseInterpolationMatrix sort inPoints outPoints order P = .ok A ∧
      ∀ i, ∃ (S : Finset (Fin n)) (w : Fin n → ℝ), S.card = order ∧
        (∀ j, ∃ c : ℤ, w j = inPoints j + c * P) ∧
        (∀ a ∈ S, ∀ b, ∀ c : ℤ, (b ∉ S ∨ inPoints b + c * P ≠ w b) →
          |w a - outPoints i| ≤ |inPoints b + c * P - outPoints i|) ∧
        (∀ j ∉ S, A i j = 0) ∧
        ∃ z : Fin n → ℝ, (∀ j ∈ S, |w j - z j| ≤ 1 / 10 ^ 8 + 1 / 10 ^ 5 * |z j - outPoints i|) ∧
          (∀ p : ℝ[X], p.degree < order → ∑ j, A i j * p.eval (z j) = p.eval (outPoints i)) ∧
          ((∀ j ∈ S, z j = w j) ∨ ∃ i' < i, ∀ j ∈ S, ∃ j', ∃ c : ℤ,
            z j - outPoints i = inPoints j' + c * P - outPoints i') := by
  set st : Fin m → Stencil n := fun i => stencilPeriodic sort inPoints order P (outPoints i) with hst
  have facts := fun i => stencilPeriodic_facts inPoints hinc P hP hin sort (outPoints i) order ho
  obtain ⟨rows, hrows, -⟩ := sparseLoop_spec (List.ofFn st) none [] (by
    intro s hs
    obtain ⟨i, rfl⟩ := List.mem_ofFn.mp hs
    exact (facts i).2.1) (by simp)
  classical
  -- the image used for each input point
  have hmodout : ∀ i, outPoints i = pyMod (outPoints i) P + P * ⌊outPoints i / P⌋ := fun i => by
    unfold pyMod; ring
  have himg : ∀ i k, ∃ c : ℤ, (st i).points k + outPoints i = inPoints ((st i).idx k) + c * P := fun i k => by
    obtain ⟨j, -, h1, h2⟩ := (facts i).2.2.2 k
    obtain ⟨s, l, e, r⟩ := path_index j
    refine ⟨shiftOf s + ⌊outPoints i / P⌋, ?_⟩
    have hl : l = (st i).idx k := Fin.ext (by rw [← r, h2])
    rw [show (st i).points k = _ from h1, periodicPath_eq inPoints P _ j s l e, ← hl]
    have := hmodout i
    push_cast
    linarith
  let w : Fin m → Fin n → ℝ := fun i j =>
    if h : ∃ k, (st i).idx k = j then (st i).points h.choose + outPoints i else inPoints j
  have hw : ∀ i k, w i ((st i).idx k) = (st i).points k + outPoints i := fun i k => by
    have hex : ∃ k', (st i).idx k' = (st i).idx k := ⟨k, rfl⟩
    simp only [w, dif_pos hex]
    rw [(facts i).2.2.1 hex.choose_spec]
  have hwimg : ∀ i j, ∃ c : ℤ, w i j = inPoints j + c * P := fun i j => by
    by_cases h : ∃ k, (st i).idx k = j
    · obtain ⟨k, rfl⟩ := h
      rw [hw]
      exact himg i k
    · exact ⟨0, by simp [w, dif_neg h]⟩
  refine ⟨_, sparse_ok sort inPoints outPoints order ho P rows st (fun i => by rw [if_pos hP]) hrows,
    fun i => ?_⟩
  obtain ⟨h1, z, h2, h3, h4⟩ := sparse_rows st outPoints w order (fun i => (facts i).1)
    (fun i => (facts i).2.1) (fun i => (facts i).2.2.1) (fun i k => by rw [hw, add_sub_cancel_right])
    rows hrows i
  refine ⟨Finset.univ.image (st i).idx, w i, ?_, hwimg i, ?_, fun j hj => ?_, z, fun j hj => ?_, h3, ?_⟩
  · rw [Finset.card_image_of_injective _ (facts i).2.2.1, Finset.card_univ, Fintype.card_fin]
    exact (facts i).1
  · intro a ha b c hbc
    obtain ⟨k, -, rfl⟩ := Finset.mem_image.mp ha
    obtain ⟨j, hj, hp, hr⟩ := (facts i).2.2.2 k
    rw [hw, add_sub_cancel_right, show (st i).points k = _ from hp]
    have hhalf := closest_half inPoints hinc P hP hin sort (outPoints i) order ho j hj
    have ho' := pyMod_bounds hP (outPoints i)
    have hb := hin b
    set f := ⌊outPoints i / P⌋ with hf
    have he : inPoints b + c * P - outPoints i = inPoints b + ((c - f : ℤ) : ℝ) * P - pyMod (outPoints i) P := by
      have := hmodout i
      push_cast
      linarith
    rw [he]
    by_cases hc1 : c - f ≤ 1
    swap
    · have : (2:ℝ) ≤ ((c - f : ℤ) : ℝ) := by exact_mod_cast (by omega : (2:ℤ) ≤ c - f)
      refine hhalf.trans (le_trans ?_ (le_abs_self _))
      nlinarith
    by_cases hc2 : -1 ≤ c - f
    swap
    · have : ((c - f : ℤ) : ℝ) ≤ -2 := by exact_mod_cast (by omega : c - f ≤ (-2:ℤ))
      refine hhalf.trans (le_trans ?_ (neg_le_abs _))
      nlinarith
    obtain ⟨s, hs⟩ := shiftOf_surj (c - f) hc2 hc1
    have hlt : (s : ℕ) * n + b < 3 * n := by
      have h1 := s.2
      have h2 := b.2
      nlinarith
    have hpath := periodicPath_eq inPoints P (outPoints i) ⟨s * n + b, hlt⟩ s b rfl
    rw [hs] at hpath
    rw [← hpath]
    by_cases hm : (⟨s * n + b, hlt⟩ : Fin (3 * n)) ∈
        closestSet sort (fun j => |periodicPath inPoints P (outPoints i) j|) order
    · exfalso
      -- it is the image that is used for `b`
      have hbS : ∃ k', (st i).idx k' = b ∧ (st i).points k' = periodicPath inPoints P (outPoints i) ⟨s * n + b, hlt⟩ := by
        set S := closestSet sort (fun j => |periodicPath inPoints P (outPoints i) j|) order with hS
        let values : Fin S.card → ℝ := fun k => periodicPath inPoints P (outPoints i) (S.orderEmbOfFin rfl k)
        obtain ⟨k0, hk0⟩ : ∃ k0, S.orderEmbOfFin rfl k0 = ⟨s * n + b, hlt⟩ := by
          have := Finset.range_orderEmbOfFin S rfl
          have hmem : (⟨s * n + b, hlt⟩ : Fin (3 * n)) ∈ (S : Set (Fin (3 * n))) := hm
          rw [← this] at hmem
          exact hmem
        refine ⟨npUniqueInverse values k0, ?_, ?_⟩
        swap
        · change npUnique values (npUniqueInverse values k0) = _
          rw [npUnique_inverse]
          change periodicPath inPoints P (outPoints i) (S.orderEmbOfFin rfl k0) = _
          rw [hk0]
        · obtain ⟨j2, hj2, hp2, hr2⟩ := (facts i).2.2.2 (npUniqueInverse values k0)
          have hv : (st i).points (npUniqueInverse values k0) = periodicPath inPoints P (outPoints i) ⟨s * n + b, hlt⟩ := by
            change npUnique values (npUniqueInverse values k0) = _
            rw [npUnique_inverse]
            change periodicPath inPoints P (outPoints i) (S.orderEmbOfFin rfl k0) = _
            rw [hk0]
          rw [show (st i).points _ = _ from hp2] at hv
          obtain ⟨s3, l3, e3, r3⟩ := path_index j2
          rw [hpath, periodicPath_eq inPoints P _ j2 s3 l3 e3] at hv
          have := (image_inj inPoints hinc P hP hin (l := l3) (l' := b) (c := shiftOf s3) (c' := c - f)
            (by linarith)).1
          refine Fin.ext ?_
          rw [show ((st i).idx (npUniqueInverse values k0) : ℕ) = _ from hr2.symm, r3, this]
      obtain ⟨k', hk', hpk⟩ := hbS
      rcases hbc with hbc | hbc
      · exact hbc (Finset.mem_image.mpr ⟨k', Finset.mem_univ _, hk'⟩)
      · refine hbc ?_
        rw [← hk', hw, hpk, hpath, hk']
        linarith [he]
    · exact closestSet_nearest sort _ order j _ hj hm
  · exact h1 j fun k hk => hj (Finset.mem_image.mpr ⟨k, Finset.mem_univ _, hk⟩)
  · obtain ⟨k, -, rfl⟩ := Finset.mem_image.mp hj
    have := h2 k
    unfold npIsClose at this
    rwa [sub_sub_sub_cancel_right] at this
  · rcases h4 with h4 | ⟨i', hi', h4⟩
    · refine Or.inl fun j hj => ?_
      obtain ⟨k, -, rfl⟩ := Finset.mem_image.mp hj
      exact h4 k
    · refine Or.inr ⟨i', hi', fun j hj => ?_⟩
      obtain ⟨k, -, rfl⟩ := Finset.mem_image.mp hj
      obtain ⟨k', hk'⟩ := h4 k
      obtain ⟨c, hc⟩ := hwimg i' ((st i').idx k')
      exact ⟨_, c, by rw [hk', hc]⟩

/-- C12, periodic grids: a periodic function that agrees with a polynomial of degree `< order` within half a
period around the first output point is interpolated exactly there. -/
theorem C12_periodic_function (sort : ArgSort) {n m : ℕ} (inPoints : Fin n → ℝ)
    (hinc : StrictMono inPoints) (P : ℝ) (hP : 0 < P) (hin : ∀ j, 0 ≤ inPoints j ∧ inPoints j < P)
    (outPoints : Fin (m + 1) → ℝ) (order : ℕ) (ho : order ≤ n) (A : Matrix (Fin (m + 1)) (Fin n) ℝ)
    (hA : getSparseInterpolationMatrix sort inPoints outPoints order P = .ok A)
    (f : ℝ → ℝ) (hf : Function.Periodic f P) (p : ℝ[X]) (hp : p.degree < order)
    (hfp : ∀ x, |x - outPoints 0| ≤ P / 2 → f x = p.eval x) :
    ∑ j, A 0 j * f (inPoints j) = f (outPoints 0) := by
  obtain ⟨A', hA', h⟩ := C12_periodic sort inPoints hinc P hP hin outPoints order ho
  rw [hA] at hA'
  cases hA'
  obtain ⟨S, w, -, hw, hnear, h0, z, -, he, hc⟩ := h 0
  have hz : ∀ j ∈ S, z j = w j := by
    rcases hc with hc | ⟨i', hi', -⟩
    · exact hc
    · exact absurd hi' (by simp)
  rw [hfp (outPoints 0) (by simp; positivity), ← he p hp]
  refine Finset.sum_congr rfl fun j _ => ?_
  by_cases hj : j ∈ S
  · congr 1
    obtain ⟨c, hc⟩ := hw j
    have hfw : f (inPoints j) = f (w j) := by
      rw [hc]
      exact (hf.int_mul c (inPoints j)).symm
    rw [hfw, hz j hj]
    refine hfp _ ?_
    -- the nearest image is at most half a period away
    by_contra hgt
    push Not at hgt
    set c' := c - round ((w j - outPoints 0) / P) with hc'
    have hr := abs_sub_round ((w j - outPoints 0) / P)
    have e : inPoints j + c' * P - outPoints 0 =
        ((w j - outPoints 0) / P - round ((w j - outPoints 0) / P)) * P := by
      rw [sub_mul, div_mul_cancel₀ _ hP.ne', hc']
      push_cast
      linarith
    have hb : |inPoints j + c' * P - outPoints 0| ≤ P / 2 := by
      rw [e, abs_mul, abs_of_pos hP]
      nlinarith
    by_cases hne : inPoints j + c' * P = w j
    · rw [hne] at hb
      linarith
    · have := hnear j hj j c' (Or.inr hne)
      linarith
  · rw [h0 j hj, zero_mul, zero_mul]

/-- C12, instance: a periodic grid. -/
example (sort : ArgSort) : ∃ A, getSparseInterpolationMatrix sort (fun j : Fin 4 => (j : ℝ))
    (fun _ : Fin 1 => 39 / 10) 3 4 = .ok A :=
  (C12_periodic sort _ (fun a b h => Nat.cast_lt.mpr h) 4 (by norm_num)
    (fun j => ⟨by positivity, by exact_mod_cast j.2⟩) _ 3 (by norm_num)).imp fun _ h => h.1

end QMat
