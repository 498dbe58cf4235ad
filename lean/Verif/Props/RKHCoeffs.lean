import Verif.Props.LagrangeOrder
import Verif.Props.GenQ
import Mathlib.Data.Fin.Tuple.Sort

/-!
# C02 for points in any order, and C27: `hCoeffs` of the Runge-Kutta classes
-/

namespace QMat

open Matrix Polynomial LagrangeApproximation

theorem exists_sorted {n : ℕ} {x : Fin n → ℝ} (hx : Function.Injective x) :
    ∃ q : Fin n → ℝ, StrictMono q ∧ Set.range q = Set.range x :=
  ⟨x ∘ Tuple.sort x, (Tuple.monotone_sort x).strictMono_of_injective (hx.comp (Tuple.sort x).injective),
    by rw [Set.range_comp]; simp⟩

/-- C02: the interpolation matrix at a time that is one of the points is the indicator of that point, also when
the points are distinct but not sorted. -/
theorem C02_cardinal_any_order {n r : ℕ} (points : Fin n → ℝ) (hinj : Function.Injective points)
    (wc : String) (sw : Bool) (sr dupl : String) (fv) (hcheb : wc = "CHEBFUN" → 2 ≤ n)
    (L : LagrangeApproximation n) (hL : LagrangeApproximation.new points wc sw sr dupl fv = .ok L)
    (times : Fin r → ℝ) (i : Fin r) (j : Fin n) (htime : times i = points j) (k : Fin n) :
    L.getInterpolationMatrix times i k = if k = j then 1 else 0 := by
  classical
  obtain ⟨q, hq, hr⟩ := exists_sorted hinj
  obtain ⟨hS, -, -⟩ := new_spec hL
  obtain ⟨hN, hu, hrep⟩ := hS.noDup hinj
  obtain ⟨c, hc0, hc⟩ := weights_unsorted hinj hq hr hcheb hL hN
  have hw : L.weights (Fin.cast hN.symm j) ≠ 0 := by
    rw [hc]
    exact mul_ne_zero hc0 (Lagrange.nodalWeight_ne_zero hq.injective.injOn (Finset.mem_univ j))
  have hentry : L.getInterpolationMatrix times i k = L.interpolationMatrixU times i (Fin.cast hN.symm k) := by
    rw [getInterpolationMatrix, ← hrep.entry_rep (L.interpolationMatrixU times)]; simp
  have hcon : ∀ u, (times i - L.uniquePoints u = 0) ↔ u = Fin.cast hN.symm j := fun u => by
    rw [sub_eq_zero, htime, ← hu j]
    exact ⟨fun h => (hS.injU h).symm, fun h => by rw [h]⟩
  have hex : ∃ u, u = Fin.cast hN.symm j := ⟨_, rfl⟩
  rw [hentry]
  simp only [interpolationMatrixU, Matrix.of_apply, hcon, hex, if_true, ite_mul, one_mul, zero_mul,
    Finset.sum_ite_eq', Finset.mem_univ]
  by_cases h : k = j
  · subst h
    simp [div_self hw]
  · rw [if_neg (by simpa [Fin.ext_iff] using h), if_neg h, zero_div]

example : ∃ L, LagrangeApproximation.new ![(0:ℝ), 2, 1] = .ok L ∧
    L.getInterpolationMatrix ![(2:ℝ)] 0 1 = 1 := by
  obtain ⟨L, hL⟩ := new_default_total ![(0:ℝ), 2, 1]
  refine ⟨L, hL, ?_⟩
  rw [C02_cardinal_any_order _ C10_unsorted_points_fails.1 _ _ _ _ _ (by simp) L hL ![(2:ℝ)] 0 1 (by simp)]
  simp

theorem rk_hCoeffs_eq (g : RK) : ∃ L, LagrangeApproximation.new g.c = .ok L ∧
    g.toQGenerator.hCoeffs = .ok (L.getInterpolationMatrix (fun _ : Fin 1 => 1) 0) := by
  obtain ⟨L, hL⟩ := new_default_total g.c
  have : qgenHCoeffs g.c = .ok (L.getInterpolationMatrix (fun _ : Fin 1 => 1) 0) := by
    unfold qgenHCoeffs
    simp only [hL, bind, Except.bind]
    rfl
  refine ⟨L, hL, ?_⟩
  change g.hCoeffs = _
  unfold RK.hCoeffs
  rw [this]

theorem indicator_exact {n : ℕ} (x : Fin n → ℝ) (v : Fin n → ℝ) (j : Fin n) (hv : ∀ k, v k = if k = j then 1 else 0)
    (hj : x j = 1) (p : ℝ[X]) : ∑ k, v k * p.eval (x k) = p.eval 1 := by
  simp [hv, hj]

/-- C27, Runge-Kutta: for nodes in increasing order, nodes with repetitions, or nodes with `1` among them,
`hCoeffs` gives the value at `1` of every polynomial of degree less than the number of distinct nodes; and when
exactly one node is `1`, it is the indicator of that node. -/
theorem C27_rk (g : RK) : ∃ v, g.toQGenerator.hCoeffs = .ok v ∧
    (∀ j, g.c j = 1 → Function.Injective g.c → ∀ k, v k = if k = j then 1 else 0) ∧
    ((StrictMono g.c ∨ ¬ Function.Injective g.c ∨ ∃ j, g.c j = 1) →
      ∀ p : ℝ[X], p.degree < Nat.card (Set.range g.c) → ∑ j, v j * p.eval (g.c j) = p.eval 1) := by
  obtain ⟨L, hL, hv⟩ := rk_hCoeffs_eq g
  have hcard : ∀ j, g.c j = 1 → Function.Injective g.c → ∀ k,
      L.getInterpolationMatrix (fun _ : Fin 1 => 1) 0 k = if k = j then 1 else 0 := fun j hj hinj k =>
    C02_cardinal_any_order g.c hinj _ _ _ _ _ (by simp) L hL (fun _ : Fin 1 => 1) 0 j hj.symm k
  refine ⟨_, hv, hcard, fun h p hp => ?_⟩
  by_cases hsd : StrictMono g.c ∨ ¬ Function.Injective g.c
  · exact congrFun (C10_sorted_or_duplicates g.c hsd _ _ _ _ _ (by simp) L hL (fun _ : Fin 1 => 1) p hp) 0
  · have hinj : Function.Injective g.c := by
      by_contra hh
      exact hsd (Or.inr hh)
    have hone : ∃ j, g.c j = 1 := by
      rcases h with h | h | h
      · exact absurd (Or.inl h) hsd
      · exact absurd hinj h
      · exact h
    obtain ⟨j, hj⟩ := hone
    exact indicator_exact g.c _ j (hcard j hj hinj) hj p

/-! ## The registered classes -/

theorem tables_hNodes : ∀ T ∈ Tables.rkSchemes, T.name ≠ "EDIRK43" →
    (∃ i < T.c.length, T.c.getD i 0 = 1) ∨
    (∃ i < T.c.length, ∃ j < T.c.length, i ≠ j ∧ T.c.getD i 0 = T.c.getD j 0) ∨
    (∀ i < T.c.length - 1, (T.c.getD i 0).a ≤ (T.c.getD (i + 1) 0).a ∧ (T.c.getD i 0).b ≤ (T.c.getD (i + 1) 0).b ∧
      ((T.c.getD i 0).a < (T.c.getD (i + 1) 0).a ∨ (T.c.getD i 0).b < (T.c.getD (i + 1) 0).b)) := by
  decide +kernel

theorem rk_out {T : RKTable} (hT : T ∈ Tables.rkSchemes) {k : String} (hk : k = T.name ∨ k ∈ T.aliases)
    {form : String} {h e : Bool} {out : QCoeffs T.c.length} (hout : genQCoeffs k form h e = .ok ⟨T.c.length, out⟩) :
    T.toRK.toQGenerator.genCoeffs form h e = .ok out := by
  have hcall : (QClass.rk T).call (fun _ => none) = .ok ⟨T.toRK.s, T.toRK.toQGenerator⟩ := by
    change (callRK T.toRK (fun _ => none) >>= fun g => _) = _
    rw [callRK_none]
    rfl
  unfold genQCoeffs at hout
  rw [Q_GENERATORS_rk hT hk] at hout
  simp only [hcall, bind, Except.bind, pure, Except.pure] at hout
  cases hg : T.toRK.toQGenerator.genCoeffs form h e with
  | error err => rw [hg] at hout; cases hout
  | ok o =>
    rw [hg] at hout
    have := Except.ok.inj hout
    simp only [Sigma.mk.injEq] at this
    exact congrArg _ (eq_of_heq this.2)

/-- C27: `genQCoeffs(name, hCoeffs=True)` of every registered Runge-Kutta class other than `EDIRK43`, by name or
alias, returns coefficients that give the value at `1` of every polynomial of degree less than the number of
distinct nodes. -/
theorem C27_registered (T : RKTable) (hT : T ∈ Tables.rkSchemes) (hne : T.name ≠ "EDIRK43") (k : String)
    (hk : k = T.name ∨ k ∈ T.aliases) (form : String) (hform : form = "Z2N" ∨ form = "N2N") (e : Bool)
    (he : e = true → T.b2 ≠ none) :
    ∃ out v, genQCoeffs k form true e = .ok ⟨T.c.length, out⟩ ∧ out.hCoeffs = some v ∧
      ∀ p : ℝ[X], p.degree < Nat.card (Set.range out.nodes) → ∑ j, v j * p.eval (out.nodes j) = p.eval 1 := by
  obtain ⟨out, hout, hn, -, -, -, -, -, -, hh⟩ := (C37_rk T hT k hk form hform true e).2 he
  obtain ⟨hnodes, -, -, -, -, -, hc⟩ := genCoeffs_parts _ _ _ _ _ (rk_out hT hk hout)
  obtain ⟨v, hv, hov⟩ := hc rfl
  obtain ⟨v', hv', -, hex⟩ := C27_rk T.toRK
  obtain rfl : v = v' := Except.ok.inj (hv.symm.trans hv')
  refine ⟨out, v, hout, hov, ?_⟩
  rw [hnodes]
  refine hex ?_
  have hcv : ∀ i : Fin T.toRK.s, T.toRK.c i = (T.c.getD i 0).toReal := fun _ => rfl
  rcases tables_hNodes T hT hne with ⟨i, hi, h1⟩ | ⟨i, hi, j, hj, hij, h1⟩ | h1
  · exact Or.inr (Or.inr ⟨⟨i, hi⟩, by rw [hcv]; simp only [h1, Quad.toReal_one]⟩)
  · refine Or.inr (Or.inl fun hinj => hij ?_)
    have := hinj (show T.toRK.c ⟨i, hi⟩ = T.toRK.c ⟨j, hj⟩ by rw [hcv, hcv]; simp only [h1])
    exact congrArg Fin.val this
  · left
    have hs : T.toRK.s = T.c.length := rfl
    have hstep : ∀ i, i < T.c.length - 1 → (T.c.getD i 0).toReal < (T.c.getD (i + 1) 0).toReal := fun i hi => by
      obtain ⟨ha, hb, hab⟩ := h1 i hi
      have hd : 0 < Real.sqrt T.d := by
        apply Real.sqrt_pos.mpr
        rcases (tables_shape T hT).1 with h | h <;> rw [h] <;> norm_num
      unfold Quad.toReal
      have ha' : (((T.c.getD i 0).a : ℚ) : ℝ) ≤ ((T.c.getD (i + 1) 0).a : ℚ) := by exact_mod_cast ha
      have hb' : (((T.c.getD i 0).b : ℚ) : ℝ) ≤ ((T.c.getD (i + 1) 0).b : ℚ) := by exact_mod_cast hb
      rcases hab with hab | hab
      · have : (((T.c.getD i 0).a : ℚ) : ℝ) < ((T.c.getD (i + 1) 0).a : ℚ) := by exact_mod_cast hab
        nlinarith
      · have : (((T.c.getD i 0).b : ℚ) : ℝ) < ((T.c.getD (i + 1) 0).b : ℚ) := by exact_mod_cast hab
        nlinarith
    have hlt : ∀ m i, i + m + 1 < T.c.length → (T.c.getD i 0).toReal < (T.c.getD (i + m + 1) 0).toReal := by
      intro m
      induction m with
      | zero => intro i hi; exact hstep i (by omega)
      | succ m ih =>
        intro i hi
        exact (ih i (by omega)).trans (hstep (i + m + 1) (by omega))
    intro i j hij
    rw [hcv, hcv]
    have := hlt (j - i - 1) i (by have := j.2; rw [Fin.lt_def] at hij; omega)
    rwa [show (i : ℕ) + ((j : ℕ) - i - 1) + 1 = j by rw [Fin.lt_def] at hij; omega] at this

example : ∃ (out : QCoeffs 5) (v : Fin 5 → ℝ), genQCoeffs "RK53" "Z2N" true = .ok ⟨5, out⟩ ∧ out.hCoeffs = some v ∧
    ∑ j, v j = 1 := by
  obtain ⟨out, v, h, h1, h2⟩ := C27_registered Tables.tRK53 (by simp [Tables.rkSchemes]) (by decide) "RK53" (by decide)
    "Z2N" (Or.inl rfl) false (by simp)
  refine ⟨out, v, h, h1, ?_⟩
  have hne : Nonempty (Set.range out.nodes) := ⟨⟨out.nodes (0 : Fin 5), Set.mem_range_self _⟩⟩
  have := h2 1 (by rw [degree_one]; exact_mod_cast Nat.card_pos)
  simp only [eval_one, mul_one] at this
  exact this

/-- The nodes of `EDIRK43`. -/
theorem edirk43_nodes : Tables.tEDIRK43.toRK.c = (![5/6, 10/39, 0, 1/6] : Fin 4 → ℝ) := by
  funext i
  change Fin 4 at i
  change (Tables.tEDIRK43.c.getD i 0).toReal = _
  fin_cases i
  · change (Quad.q 5 6 : Quad 2).toReal = _
    rw [Quad.toReal_q]; norm_num
  · change (Quad.q 10 39 : Quad 2).toReal = _
    rw [Quad.toReal_q]; norm_num
  · change (Quad.q 0 : Quad 2).toReal = _
    rw [Quad.toReal_q]; norm_num
  · change (Quad.q 1 6 : Quad 2).toReal = _
    rw [Quad.toReal_q]; norm_num

theorem edirk43_inj : Function.Injective (![5/6, 10/39, 0, 1/6] : Fin 4 → ℝ) := by
  intro i j h
  fin_cases i <;> fin_cases j <;> first | rfl | (exfalso; norm_num at h)

theorem edirk43_interp (L : LagrangeApproximation 4) (x : Fin 4 → ℝ) (hx : x = ![5/6, 10/39, 0, 1/6])
    (hL : LagrangeApproximation.new x = .ok L) :
    ∑ j, L.getInterpolationMatrix (fun _ : Fin 1 => 1) 0 j * (x j) ^ 2 ≠ 1 := by
  have hinj : Function.Injective x := by
    subst hx
    exact edirk43_inj
  have hq : StrictMono ![(0:ℝ), 1/6, 10/39, 5/6] := by
    refine Fin.strictMono_iff_lt_succ.mpr fun i => ?_
    fin_cases i <;> simp <;> norm_num
  have hr : Set.range ![(0:ℝ), 1/6, 10/39, 5/6] = Set.range x := by
    subst hx
    ext t
    simp only [Set.mem_range, Fin.exists_fin_succ, Matrix.cons_val_zero, Matrix.cons_val_succ]
    simp
    tauto
  obtain ⟨hS, -, -⟩ := new_spec hL
  obtain ⟨hN, hu, hrep⟩ := hS.noDup hinj
  obtain ⟨c, hc0, hc⟩ := weights_unsorted hinj hq hr (by simp) hL hN
  have hentry : ∀ k, L.getInterpolationMatrix (fun _ : Fin 1 => 1) 0 k =
      L.interpolationMatrixU (fun _ : Fin 1 => 1) 0 (Fin.cast hN.symm k) := fun k => by
    rw [getInterpolationMatrix, ← hrep.entry_rep (L.interpolationMatrixU _)]; simp
  have hno : ¬ ∃ j', (1:ℝ) - L.uniquePoints j' = 0 := by
    rintro ⟨j', hj'⟩
    have h1 := hu (Fin.cast hN j')
    simp only [Fin.cast_cast, Fin.cast_eq_self] at h1
    rw [h1, hx] at hj'
    generalize Fin.cast hN j' = k at hj'
    fin_cases k <;> norm_num at hj'
  have hsum : ∀ f : Fin L.nUniquePoints → ℝ, ∑ j, f j = ∑ k : Fin 4, f (Fin.cast hN.symm k) := fun f =>
    (Fintype.sum_equiv (finCongr hN.symm) _ _ fun _ => rfl).symm
  simp only [hentry, interpolationMatrixU, Matrix.of_apply, hno, if_false, hsum, hu, hc]
  have hnw : ∀ j : Fin 4, Lagrange.nodalWeight Finset.univ ![(0:ℝ), 1/6, 10/39, 5/6] j =
      ![-702/25, 702/7, -13182/175, 78/25] j := by
    intro j
    have h : ∀ y : Fin 4 → ℝ, ∏ k ∈ Finset.univ.erase j, (y j - y k)⁻¹ =
        ∏ k, if k = j then 1 else (y j - y k)⁻¹ := fun y => by
      rw [← Finset.mul_prod_erase Finset.univ _ (Finset.mem_univ j), if_pos rfl, one_mul]
      exact Finset.prod_congr rfl fun k hk => by rw [if_neg (Finset.ne_of_mem_erase hk)]
    rw [Lagrange.nodalWeight, h, Fin.prod_univ_four]
    fin_cases j <;> simp <;> norm_num
  simp only [hnw, hx, Fin.sum_univ_four]
  simp
  norm_num
  rw [show -(6 * (c * (702 / 25))) + 39 / 29 * (c * (702 / 7)) + -(c * (13182 / 175)) + 6 / 5 * (c * (78 / 25)) =
    c * (-2669316 / 25375) by ring]
  intro h
  field_simp at h
  norm_num at h

/-- C27, finding: the nodes of `EDIRK43` are distinct, not sorted, and `1` is not among them; the `hCoeffs` that
`genQCoeffs("EDIRK43", hCoeffs=True)` returns do not give the value at `1` of `X ^ 2`. -/
theorem C27_registered_fails : ∃ (out : QCoeffs 4) (v : Fin 4 → ℝ), genQCoeffs "EDIRK43" "Z2N" true = .ok ⟨4, out⟩ ∧
    out.hCoeffs = some v ∧ (X ^ 2 : ℝ[X]).degree < Nat.card (Set.range out.nodes) ∧
    ∑ j, v j * (X ^ 2 : ℝ[X]).eval (out.nodes j) ≠ (X ^ 2 : ℝ[X]).eval 1 := by
  have hT : Tables.tEDIRK43 ∈ Tables.rkSchemes := by simp [Tables.rkSchemes]
  obtain ⟨out, hout, -, -, -, -, -, -, -, hh⟩ :=
    (C37_rk Tables.tEDIRK43 hT "EDIRK43" (by decide) "Z2N" (Or.inl rfl) true false).2 (by simp)
  obtain ⟨hnodes, -, -, -, -, -, hc⟩ := genCoeffs_parts _ _ _ _ _ (rk_out hT (by decide) hout)
  obtain ⟨v, hv, hov⟩ := hc rfl
  obtain ⟨L, hL, hv'⟩ := rk_hCoeffs_eq Tables.tEDIRK43.toRK
  have hvv := Except.ok.inj (hv.symm.trans hv')
  refine ⟨out, v, hout, hov, ?_, ?_⟩
  · have hinj : Function.Injective Tables.tEDIRK43.toRK.c := by
      rw [edirk43_nodes]
      exact edirk43_inj
    have hcard : Nat.card (Set.range Tables.tEDIRK43.toRK.c) = 4 := by
      rw [Nat.card_congr (Equiv.ofInjective _ hinj).symm]
      exact Nat.card_fin _
    have hcard' : Nat.card (Set.range out.nodes) = 4 := by rw [hnodes]; exact hcard
    have h24 : ((2 : ℕ) : WithBot ℕ) < ((4 : ℕ) : WithBot ℕ) := by exact_mod_cast (by norm_num : 2 < 4)
    rw [degree_X_pow]
    exact lt_of_lt_of_eq h24 (congrArg (Nat.cast : ℕ → WithBot ℕ) hcard'.symm)
  · rw [hnodes, hvv]
    have := edirk43_interp L _ edirk43_nodes hL
    simp only [eval_pow, eval_X, one_pow]
    exact this

end QMat
