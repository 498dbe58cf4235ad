import Mathlib.Analysis.Complex.ExponentialBounds
import Verif.Lemmas.SDCEquid
import Verif.Props.SDCOrder

/-!
# C61: the orders announced by `getOrderSDC`
-/

namespace QMat

open Matrix Spec SDCRat

variable {M : ℕ}

/-! ## Bounds -/

theorem getOrderSDC_bonus (nNodes : ℕ) (nt qt : String) (maxOrder : ℕ) (nSweeps : ℤ) (q u : String) :
    ∃ b : ℕ, getOrderSDC nNodes nt qt maxOrder nSweeps q u =
      baseOrderSDC maxOrder nSweeps q u + b ∧
      b = (orderBonuses.map fun o =>
        if o.applies nNodes nt qt nSweeps q u then o.bonus else 0).sum := by
  refine ⟨_, ?_, rfl⟩
  unfold getOrderSDC
  generalize baseOrderSDC maxOrder nSweeps q u = a
  induction orderBonuses generalizing a with
  | nil => simp
  | cons o l ih =>
    simp only [List.foldl_cons, List.map_cons, List.sum_cons]
    rw [ih]
    split_ifs <;> push_cast <;> ring

/-- No configuration meets the tests of both. -/
def OrderBonus.excludes (a b : OrderBonus) : Bool :=
  a.stepUpdate ≠ b.stepUpdate || a.qDelta ≠ b.qDelta || a.nSweeps ≠ b.nSweeps || a.nNodes ≠ b.nNodes ||
    (a.nodeTypes ≠ [] && b.nodeTypes ≠ [] && a.nodeTypes.all fun t => t ∉ b.nodeTypes) ||
    (a.quadTypes ≠ [] && b.quadTypes ≠ [] && a.quadTypes.all fun t => t ∉ b.quadTypes)

theorem OrderBonus.excludes_sound {a b : OrderBonus} (h : a.excludes b = true) {nNodes : ℕ}
    {nt qt : String} {nSweeps : ℤ} {q u : String} (ha : a.applies nNodes nt qt nSweeps q u = true) :
    b.applies nNodes nt qt nSweeps q u = false := by
  by_contra hb
  rw [Bool.not_eq_false] at hb
  simp only [OrderBonus.applies, Bool.and_eq_true, decide_eq_true_eq, Bool.or_eq_true] at ha hb
  obtain ⟨⟨⟨⟨⟨a1, a2⟩, a3⟩, a4⟩, a5⟩, a6⟩ := ha
  obtain ⟨⟨⟨⟨⟨b1, b2⟩, b3⟩, b4⟩, b5⟩, b6⟩ := hb
  simp only [OrderBonus.excludes, Bool.or_eq_true, Bool.and_eq_true, decide_eq_true_eq,
    List.all_eq_true] at h
  rcases h with ((((h | h) | h) | h) | h) | h
  · exact h (a1 ▸ b1)
  · exact h (a2 ▸ b2)
  · exact h (by exact_mod_cast a3.symm.trans b3)
  · exact h (a4.symm.trans b4)
  · exact h.2 nt (a5.resolve_left h.1.1) (b5.resolve_left h.1.2)
  · exact h.2 qt (a6.resolve_left h.1.1) (b6.resolve_left h.1.2)

theorem bonuses_pairwise : orderBonuses.Pairwise fun a b => a.excludes b = true := by
  decide +kernel

theorem bonuses_ranges : ∀ o ∈ orderBonuses, o.bonus ≤ 2 ∧ 1 ≤ o.nSweeps ∧ o.nSweeps ≤ 4 ∧
    2 ≤ o.nNodes ∧ o.nNodes ≤ 4 ∧ o.qDelta ∈ ["BE", "FE", "TRAP", "BEPAR", "TRAPAR", "SOE"] := by
  have : (orderBonuses.all fun o => decide (o.bonus ≤ 2 ∧ 1 ≤ o.nSweeps ∧ o.nSweeps ≤ 4 ∧
    2 ≤ o.nNodes ∧ o.nNodes ≤ 4 ∧ o.qDelta ∈ ["BE", "FE", "TRAP", "BEPAR", "TRAPAR", "SOE"])) = true := by
    decide +kernel
  intro o ho
  simpa using List.all_eq_true.mp this o ho

/-- The bonuses are at most 2 together, and there is one only for one to four sweeps, two to four nodes
and the time stepping types. -/
theorem bonus_le (nNodes : ℕ) (nt qt : String) (nSweeps : ℤ) (q u : String) :
    (orderBonuses.map fun o => if o.applies nNodes nt qt nSweeps q u then o.bonus else 0).sum ≤ 2 ∧
    (0 < (orderBonuses.map fun o => if o.applies nNodes nt qt nSweeps q u then o.bonus else 0).sum →
      1 ≤ nSweeps ∧ nSweeps ≤ 4 ∧ 2 ≤ nNodes ∧ nNodes ≤ 4 ∧
        q ∈ ["BE", "FE", "TRAP", "BEPAR", "TRAPAR", "SOE"]) := by
  have hp := bonuses_pairwise
  have hr := bonuses_ranges
  generalize orderBonuses = l at hp hr
  induction l with
  | nil => simp
  | cons o l ih =>
    rw [List.pairwise_cons] at hp
    have ih := ih hp.2 fun o' ho' => hr o' (List.mem_cons_of_mem _ ho')
    simp only [List.map_cons, List.sum_cons]
    by_cases ho : o.applies nNodes nt qt nSweeps q u = true
    · have h0 : (l.map fun o => if o.applies nNodes nt qt nSweeps q u then o.bonus else 0).sum = 0 := by
        rw [List.sum_eq_zero]
        intro x hx
        obtain ⟨o', ho', rfl⟩ := List.mem_map.mp hx
        rw [OrderBonus.excludes_sound (hp.1 o' ho') ho]
        rfl
      rw [h0, if_pos ho]
      obtain ⟨h1, h2, h3, h4, h5, h6⟩ := hr o (by simp)
      refine ⟨by omega, fun _ => ?_⟩
      simp only [OrderBonus.applies, Bool.and_eq_true, decide_eq_true_eq] at ho
      obtain ⟨⟨⟨⟨⟨a1, a2⟩, a3⟩, a4⟩, a5⟩, a6⟩ := ho
      rw [a2]
      exact ⟨by omega, by omega, by omega, by omega, h6⟩
    · rw [if_neg ho, zero_add]
      exact ih

/-- C61: the announced order is between the base order (see C60) and two more, hence at most two above
the order of the collocation; beyond four sweeps or four nodes, and for every type that is not a time
stepping one, it is the base order, so with more sweeps it does not decrease and ends at the order of
the collocation. -/
theorem C61_bounds (nNodes : ℕ) (nt qt : String) (maxOrder : ℕ) (nSweeps : ℤ) (q u : String) :
    baseOrderSDC maxOrder nSweeps q u ≤ getOrderSDC nNodes nt qt maxOrder nSweeps q u ∧
    getOrderSDC nNodes nt qt maxOrder nSweeps q u ≤ baseOrderSDC maxOrder nSweeps q u + 2 ∧
    getOrderSDC nNodes nt qt maxOrder nSweeps q u ≤ maxOrder + 2 ∧
    (nSweeps ≤ 0 ∨ 5 ≤ nSweeps ∨ nNodes ≤ 1 ∨ 5 ≤ nNodes ∨
      q ∉ ["BE", "FE", "TRAP", "BEPAR", "TRAPAR", "SOE"] →
      getOrderSDC nNodes nt qt maxOrder nSweeps q u = baseOrderSDC maxOrder nSweeps q u) ∧
    (5 ≤ nSweeps → maxOrder ≤ nSweeps → getOrderSDC nNodes nt qt maxOrder nSweeps q u = maxOrder) := by
  obtain ⟨b, hb, hb2⟩ := getOrderSDC_bonus nNodes nt qt maxOrder nSweeps q u
  obtain ⟨h2, h3⟩ := bonus_le nNodes nt qt nSweeps q u
  rw [← hb2] at h2 h3
  have hmax : baseOrderSDC maxOrder nSweeps q u ≤ maxOrder := by
    unfold baseOrderSDC
    exact min_le_left _ _
  refine ⟨by omega, by omega, by omega, fun h => ?_, fun h5 hm => ?_⟩
  · have : b = 0 := by
      by_contra hb0
      obtain ⟨h4, h5, h6, h7, h8⟩ := h3 (by omega)
      rcases h with h | h | h | h | h
      · omega
      · omega
      · omega
      · omega
      · exact h h8
    omega
  · have : b = 0 := by
      by_contra hb0
      have := h3 (by omega)
      omega
    rw [hb, this]
    unfold baseOrderSDC
    have h0 : nSweeps > 0 := by omega
    simp only [h0, if_true]
    split_ifs <;> omega

/-- Instances, one of them with a bonus. -/
example : getOrderSDC 4 "EQUID" "LOBATTO" 4 2 "TRAP" "LASTNODE" = 5 ∧
    baseOrderSDC 4 2 "TRAP" "LASTNODE" = 3 ∧
    getOrderSDC 4 "EQUID" "LOBATTO" 4 7 "TRAP" "LASTNODE" = 4 := by decide +kernel

/-- C61, findings.  The announced order exceeds the order of the collocation; it is not monotone in the
number of sweeps; it depends on which of the registered names of a class is used; and it is the one for
the last node for every `stepUpdate` that is not one of two strings (the documentation asks for a
boolean). -/
theorem C61_table_fails :
    getOrderSDC 3 "EQUID" "RADAU-LEFT" 3 1 "TRAP" "QUADRATURE" = 4 ∧
    getOrderSDC 3 "EQUID" "RADAU-LEFT" 3 2 "TRAP" "QUADRATURE" = 3 ∧
    getOrderSDC 3 "EQUID" "RADAU-LEFT" 3 1 "CN" "QUADRATURE" = 2 ∧
    (∀ ext, QDELTA_GENERATORS ext "CN" = QDELTA_GENERATORS ext "TRAP") ∧
    getOrderSDC 3 "EQUID" "RADAU-LEFT" 3 1 "TRAP" "True" = 2 := by
  refine ⟨by decide +kernel, by decide +kernel, by decide +kernel, fun ext => rfl, by decide +kernel⟩

/-! ## Equidistant nodes: the true orders -/

theorem getQD_time (ext : ExternalNum) (c : Collocation M) (k : Option ℤ) (g : TimeStepping M)
    (hg : TimeStepping.new c.nodes 0 = .ok g) :
    getQD ext "BE" (kwColl c) k = .ok ⟨M, g.computeBE⟩ ∧
    getQD ext "FE" (kwColl c) k = .ok ⟨M, g.computeFE⟩ ∧
    getQD ext "TRAP" (kwColl c) k = .ok ⟨M, g.computeTRAP⟩ ∧
    getQD ext "BEPAR" (kwColl c) k = .ok ⟨M, g.computeBEPAR⟩ ∧
    getQD ext "TRAPAR" (kwColl c) k = .ok ⟨M, g.computeTRAPAR⟩ := by
  have key : ∀ (compute : TimeStepping M → Matrix (Fin M) (Fin M) ℝ) (dTau : TimeStepping M → Fin M → ℝ),
      (do
        let G ← (do
          let g ← TimeStepping.new c.nodes 0
          return ({ size := M, kDependent := false, compute := fun _ => .ok (compute g), shared := fun _ => false, dTau := dTau g } : QDeltaGen) : PyResult QDeltaGen)
        let A ← G.getQDelta k
        return (⟨G.size, A⟩ : Σ n, Matrix (Fin n) (Fin n) ℝ)) = (.ok ⟨M, compute g⟩ : PyResult _) := by
    intro compute dTau
    rw [hg]
    rfl
  exact ⟨key (fun g => g.computeBE) fun _ => 0, key (fun g => g.computeFE) fun g => g.dTauFE,
    key (fun g => g.computeTRAP) fun g => g.dTauTRAP, key (fun g => g.computeBEPAR) fun _ => 0,
    key (fun g => g.computeTRAPAR) fun g => g.dTauTRAPAR⟩

theorem getQD_scheme {qt : String} (ext : ExternalNum) (hM4 : M ≤ 4) (c : Collocation M)
    (hc : Collocation.new M "EQUID" qt 0 1 = .ok c) {name : String}
    (hname : name ∈ ["BE", "FE", "TRAP", "BEPAR", "TRAPAR"]) {A : Matrix (Fin M) (Fin M) ℝ}
    (hA : getQD ext name (kwColl c) none = .ok ⟨M, A⟩) :
    A = mat M (build M (schemeQ name (equid qt M))) := by
  have hx := equid_nodes (by omega) c hc
  obtain ⟨g, hg⟩ : ∃ g, TimeStepping.new c.nodes 0 = .ok g := by
    obtain ⟨x, hM0, -⟩ := collocation_spec hc
    unfold TimeStepping.new
    rw [if_pos hM0]
    exact ⟨_, rfl⟩
  obtain ⟨h1, h2, h3, h4, h5⟩ := getQD_time ext c none g hg
  rw [hx] at hg
  obtain ⟨e1, e2, e3, e4, e5⟩ := schemes_cast hg
  have inj : ∀ {B : Matrix (Fin M) (Fin M) ℝ},
      (Except.ok ⟨M, B⟩ : PyResult (Σ n, Matrix (Fin n) (Fin n) ℝ)) = .ok ⟨M, A⟩ → A = B := by
    intro B h
    simpa using h.symm
  simp only [List.mem_cons, List.not_mem_nil, or_false] at hname
  rcases hname with rfl | rfl | rfl | rfl | rfl
  · rw [h1] at hA
    exact (inj hA).trans e1
  · rw [h2] at hA
    exact (inj hA).trans e2
  · rw [h3] at hA
    exact (inj hA).trans e3
  · rw [h4] at hA
    exact (inj hA).trans e4
  · rw [h5] at hA
    exact (inj hA).trans e5

/-- The matrix and the weights of a collocation with two to four equidistant nodes, in rational numbers. -/
theorem equid_mats {qt : String} (hM : 2 ≤ M ∧ M ≤ 4) (c : Collocation M)
    (hc : Collocation.new M "EQUID" qt 0 1 = .ok c) :
    (M, qt) ∈ equidSizes ∧ c.weights = vec M (intRow (equid qt M) 1) ∧ c.Q = mat M (qmat (equid qt M)) ∧
    c.order = some (equidOrder M qt) := by
  obtain ⟨x, hM0, h⟩ := collocation_spec hc
  have hx := equid_nodes (by omega) c hc
  set l := equid qt M with hl
  have hs : (M, qt) ∈ equidSizes := by
    have hq := h.hqt
    simp only [QUAD_TYPES] at hq
    unfold equidSizes
    rw [List.mem_flatMap]
    refine ⟨M, ?_, List.mem_map.mpr ⟨qt, hq, rfl⟩⟩
    have : M = 2 ∨ M = 3 ∨ M = 4 := by omega
    simpa using this
  have hll : l.length = M := by simp [hl, equid]
  have hrows := List.all_eq_true.mp equid_rows _ hs
  simp only [Bool.and_eq_true, List.all_eq_true] at hrows
  obtain ⟨hinj, hQm⟩ := coll_monomials one_pos hc
  -- weights and Q
  have hW : c.weights = vec M (intRow l 1) := by
    refine row_unique hinj hll hx hrows.1 fun k hk => ?_
    have := h.weights_exact one_pos (Polynomial.X ^ k) (by
      rw [Polynomial.degree_X_pow]; exact_mod_cast hk)
    simpa [QuadExact, polyInt] using this
  have hQ : c.Q = mat M (qmat l) := by
    funext i
    have hi : (i:ℕ) < l.length := by omega
    have e : mat M (qmat l) i = vec M (intRow l (l.getD i 0)) := by
      change vec M ((qmat l).getD i []) = _
      simp [qmat, List.getD_eq_getElem?_getD, hi]
    rw [e]
    refine row_unique hinj hll hx (hrows.2 _ ?_) fun k hk => ?_
    · rw [List.getD_eq_getElem?_getD, List.getElem?_eq_getElem hi]
      exact List.getElem_mem hi
    · have := hQm k hk i
      rw [hx] at this ⊢
      exact this
  have hord : c.order = some (equidOrder M qt) := by
    unfold Collocation.order equidOrder
    rw [h.nodeType, h.quadType]
    by_cases hq : qt ∈ ["GAUSS", "LOBATTO"] <;> simp [hq]
  exact ⟨hs, hW, hQ, hord⟩

/-- C61, equidistant nodes: for two to four nodes, up to five sweeps and five of the six time stepping
types, the exact order of SDC is the one announced by `getOrderSDC`, except for the `overstated`
configurations, where it is one less. -/
theorem C61_equidistant {qt : String} (ext : ExternalNum) (hM : 2 ≤ M ∧ M ≤ 4) (c : Collocation M)
    (hc : Collocation.new M "EQUID" qt 0 1 = .ok c) {name : String}
    (hname : name ∈ ["BE", "FE", "TRAP", "BEPAR", "TRAPAR"]) (A : Matrix (Fin M) (Fin M) ℝ)
    (hA : getQD ext name (kwColl c) none = .ok ⟨M, A⟩) (K : ℕ) (hK : K ≤ 5) :
    ∃ order, c.order = some order ∧
    ∀ upd w, (upd = "QUADRATURE" ∧ w = some c.weights ∨
        upd = "LASTNODE" ∧ w = none ∧ 0 < K ∧ (qt = "RADAU-RIGHT" ∨ qt = "LOBATTO")) →
      ∃ p : ℕ, (p : ℤ) = getOrderSDC M "EQUID" qt order K name upd -
          (if overstated M qt name upd K then 1 else 0) ∧
        SDCConverges c.Q (.mat M M A) K w p ∧ SDCNotFaster c.Q (.mat M M A) K w p := by
  have hAe := getQD_scheme ext hM.2 c hc hname hA
  obtain ⟨x, hM0, h⟩ := collocation_spec hc
  have hx := equid_nodes (by omega) c hc
  set l := equid qt M with hl
  have hll : l.length = M := by simp [hl, equid]
  obtain ⟨hs, hW, hQ, hord⟩ := equid_mats hM c hc
  have hsum := residue_add M (qmat l) (schemeQ name l)
  rw [← hAe, ← hQ] at hsum
  have hSQD : SweepMatrices M (K:ℤ) (.mat M M A) (fun _ => A) := .same K A
  have sh1 := build_shape M (schemeQ name l)
  have sh2 : Shape M (residue M (qmat l) (schemeQ name l)) := build_shape _ _
  have hpos := List.all_eq_true.mp (List.all_eq_true.mp (List.all_eq_true.mp equid_pos _ hs) name hname) K
    (List.mem_range.mpr (by omega))
  simp only [Bool.and_eq_true, Bool.or_eq_true, decide_eq_true_eq] at hpos
  have hfin : ∀ (upd : String), 0 < trueOrder M qt name upd K →
      ((trueOrder M qt name upd K : ℕ) : ℤ) = getOrderSDC M "EQUID" qt (equidOrder M qt) K name upd -
          (if overstated M qt name upd K then 1 else 0) := by
    intro upd h0
    unfold trueOrder at h0 ⊢
    split_ifs at h0 ⊢ <;> omega
  refine ⟨_, hord, ?_⟩
  rintro upd w (⟨rfl, rfl⟩ | ⟨rfl, rfl, hK0, hr⟩)
  · refine ⟨trueOrder M qt name "QUADRATURE" K, hfin _ hpos.1, ?_⟩
    have hex := List.all_eq_true.mp (List.all_eq_true.mp (List.all_eq_true.mp equid_quadrature _ hs)
      name hname) K (List.mem_range.mpr (by omega))
    have := exactOrder_sound sh1 sh2 (w := some (intRow l 1)) (by rintro _ ⟨rfl⟩; simp [intRow, hll]) hM0 hex
    rw [← hAe, hsum, Option.map_some, ← hW] at this
    have crit := C60_criterion c.Q _ K _ hSQD (some c.weights) (by simp) _ this.1
    exact ⟨crit.1, crit.2 hpos.1 this.2⟩
  · have hp : 0 < trueOrder M qt name "LASTNODE" K := hpos.2.resolve_left (by omega)
    refine ⟨trueOrder M qt name "LASTNODE" K, hfin _ hp, ?_⟩
    have hex := List.all_eq_true.mp (List.all_eq_true.mp (List.all_eq_true.mp equid_lastNode _ hs)
      name hname) K (List.mem_range.mpr (by omega))
    simp only [Bool.or_eq_true, decide_eq_true_eq] at hex
    have hex := hex.resolve_left (by
      rintro ((rfl | rfl) | h0)
      · simp at hr
      · simp at hr
      · omega)
    have := exactOrder_sound sh1 sh2 (w := none) (by simp) hM0 hex
    rw [← hAe, hsum, Option.map_none] at this
    have crit := C60_criterion c.Q _ K _ hSQD none (fun _ => hM0) _ this.1
    exact ⟨crit.1, crit.2 hp this.2⟩

/-- C61, instance: the exact order of three sweeps of the trapezoidal rule on four equidistant `LOBATTO`
nodes. -/
example (ext : ExternalNum) : ∃ (c : Collocation 4) (A : Matrix (Fin 4) (Fin 4) ℝ),
    Collocation.new 4 "EQUID" "LOBATTO" 0 1 = .ok c ∧ getQD ext "TRAP" (kwColl c) none = .ok ⟨4, A⟩ ∧
    SDCConverges c.Q (.mat 4 4 A) 3 none 4 ∧ SDCNotFaster c.Q (.mat 4 4 A) 3 none 4 := by
  obtain ⟨c, hc⟩ := collocation_new_ok (M := 4) (nt := "EQUID") (qt := "LOBATTO") (by decide)
    (by decide) ⟨by decide, by decide⟩ 0 1
  obtain ⟨g, hg⟩ : ∃ g, TimeStepping.new c.nodes 0 = .ok g := ⟨_, rfl⟩
  have hA := (getQD_time ext c none g hg).2.2.1
  obtain ⟨order, ho, h⟩ := C61_equidistant ext (by norm_num) c hc (name := "TRAP") (by decide) _ hA 3
    (by norm_num)
  have ho4 : c.order = some 4 := by
    unfold Collocation.order
    rw [(coll_types hc).1, (coll_types hc).2]
    decide
  obtain rfl : order = 4 := by rw [ho4] at ho; simpa using ho.symm
  obtain ⟨p, hp, h1, h2⟩ := h "LASTNODE" none (Or.inr ⟨rfl, rfl, by norm_num, Or.inr rfl⟩)
  have h4 : getOrderSDC 4 "EQUID" "LOBATTO" 4 3 "TRAP" "LASTNODE" = 4 := by decide +kernel
  have e : ((3:ℕ):ℤ) = 3 := rfl
  rw [e, h4, if_neg (by decide)] at hp
  obtain rfl : p = 4 := by omega
  exact ⟨c, _, hc, hA, h1, h2⟩

/-- C61, finding: for three equidistant `RADAU-LEFT` nodes, `BEPAR`, three sweeps and the quadrature
update, `getOrderSDC` announces 4 (the tests check this on coarse steps), but the errors are not
`O(nSteps^{-4})`. -/
theorem C61_bonus_fails (ext : ExternalNum) : ∃ (c : Collocation 3) (A : Matrix (Fin 3) (Fin 3) ℝ),
    Collocation.new 3 "EQUID" "RADAU-LEFT" 0 1 = .ok c ∧ c.order = some 3 ∧
    getQD ext "BEPAR" (kwColl c) none = .ok ⟨3, A⟩ ∧
    getOrderSDC 3 "EQUID" "RADAU-LEFT" 3 3 "BEPAR" "QUADRATURE" = 4 ∧
    ¬ SDCConverges c.Q (.mat 3 3 A) 3 (some c.weights) 4 := by
  obtain ⟨c, hc⟩ := collocation_new_ok (M := 3) (nt := "EQUID") (qt := "RADAU-LEFT") (by decide)
    (by decide) ⟨by decide, by decide⟩ 0 1
  obtain ⟨g, hg⟩ : ∃ g, TimeStepping.new c.nodes 0 = .ok g := ⟨_, rfl⟩
  have hA := (getQD_time ext c none g hg).2.2.2.1
  obtain ⟨order, ho, h⟩ := C61_equidistant ext (by norm_num) c hc (name := "BEPAR") (by decide) _ hA 3
    (by norm_num)
  have ho3 : c.order = some 3 := by
    unfold Collocation.order
    rw [(coll_types hc).1, (coll_types hc).2]
    decide
  obtain rfl : order = 3 := by rw [ho3] at ho; simpa using ho.symm
  obtain ⟨p, hp, -, hn⟩ := h "QUADRATURE" _ (Or.inl ⟨rfl, rfl⟩)
  have h4 : getOrderSDC 3 "EQUID" "RADAU-LEFT" 3 3 "BEPAR" "QUADRATURE" = 4 := by decide +kernel
  refine ⟨c, _, hc, ho3, hA, h4, hn.not_converges ?_⟩
  have e : ((3:ℕ):ℤ) = 3 := rfl
  rw [e, h4, if_pos (by decide)] at hp
  omega

/-- C60, finding: with the last node value the order is the announced one only if the last node is the end
of the step.  For one `GAUSS` node, backward Euler as `QΔ` and any number of sweeps, `getOrderSDC`
announces an order of at least one, but the method does not converge. -/
theorem C60_lastnode_fails (ext : ExternalNum) : ∃ (c : Collocation 1) (A : Matrix (Fin 1) (Fin 1) ℝ),
    Collocation.new 1 "EQUID" "GAUSS" 0 1 = .ok c ∧ c.order = some 2 ∧
    getQD ext "BE" (kwColl c) none = .ok ⟨1, A⟩ ∧
    ∀ K : ℕ, 0 < K → 1 ≤ getOrderSDC 1 "EQUID" "GAUSS" 2 K "BE" "LASTNODE" ∧
      (∀ n : ℕ, 0 < n → ∃ e, errorDahlquistSDC (-1) 1 2 n K c.Q (.mat 1 1 A) none = .ok e ∧ 1 / 5 ≤ e) ∧
      ¬ SDCConverges c.Q (.mat 1 1 A) K none 1 := by
  obtain ⟨c, hc⟩ := collocation_new_ok (M := 1) (nt := "EQUID") (qt := "GAUSS") (by decide)
    (by decide) ⟨by decide, by decide⟩ 0 1
  obtain ⟨g, hg⟩ : ∃ g, TimeStepping.new c.nodes 0 = .ok g := ⟨_, rfl⟩
  have hA := (getQD_time ext c none g hg).1
  have hx := equid_nodes (by norm_num) c hc
  have hnode : c.nodes 0 = 1 / 2 := by
    rw [hx]
    simp [vec, equid, equidIntervals, equidOffset]
  have hQ : c.Q = fun _ _ => 1 / 2 := by
    funext i j
    have := congrFun (collocation_Q_one c hc) i
    have e : ∑ j, c.Q i j * 1 = c.nodes i := this
    have hi : i = 0 := Subsingleton.elim _ _
    have hj : j = 0 := Subsingleton.elim _ _
    subst hi hj
    simpa [hnode] using e
  have hBE : g.computeBE = c.Q := by
    obtain ⟨-, -, -, hd⟩ := g.new_ok hg
    funext i j
    have hi : i = 0 := Subsingleton.elim _ _
    have hj : j = 0 := Subsingleton.elim _ _
    subst hi hj
    rw [g.computeBE_apply, if_pos le_rfl, hd, hQ]
    simp [hnode]
  have ho : c.order = some 2 := by
    unfold Collocation.order
    rw [(coll_types hc).1, (coll_types hc).2]
    decide
  refine ⟨c, _, hc, ho, hA, fun K hK => ?_⟩
  have main : ∀ n : ℕ, 0 < n →
      ∃ e, errorDahlquistSDC (-1) 1 2 n K c.Q (.mat 1 1 g.computeBE) none = .ok e ∧ 1 / 5 ≤ e := by
    intro n hn
    have hn0 : (0:ℝ) < n := by exact_mod_cast hn
    have hent : ∀ z : ℂ, z = -1 * ((2 / n : ℝ) : ℂ) →
        (1 - z • cmat c.Q) 0 0 = ((1 + 1 / n : ℝ) : ℂ) := by
      rintro z rfl
      have : cmat c.Q 0 0 = 1 / 2 := by
        change ((c.Q 0 0 : ℝ) : ℂ) = _
        rw [hQ]
        push_cast
        rfl
      rw [Matrix.sub_apply, Matrix.smul_apply, this, Matrix.one_apply_eq, smul_eq_mul]
      push_cast
      ring
    have hne : ((1 + 1 / n : ℝ) : ℂ) ≠ 0 := by
      rw [Ne, Complex.ofReal_eq_zero]; positivity
    obtain ⟨e, he, hle, -⟩ := errorDahlquistSDC_of_solve (-1) 1 2 n K hn c.Q (.mat 1 1 g.computeBE)
      (fun _ => g.computeBE) (.same K _) none (fun _ => one_pos) (fun k _ => by
        rw [hBE, Matrix.det_fin_one, hent _ rfl]
        exact hne)
    refine ⟨e, he, le_trans ?_ (hle n le_rfl)⟩
    have hfac : ∀ z : ℂ, z = -1 * ((2 / n : ℝ) : ℂ) →
        sdcFactor z c.Q (fun _ => g.computeBE) K (sigmaWeights (M := 1) none) = ((1 + 1 / n : ℝ) : ℂ)⁻¹ := by
      intro z hz
      unfold sdcFactor
      rw [sdcIter_exact hK hBE]
      change ((1 - z • cmat c.Q)⁻¹ *ᵥ fun _ => 1) 0 = _
      have hinv : (1 - z • cmat c.Q)⁻¹ 0 0 = ((1 + 1 / n : ℝ) : ℂ)⁻¹ := by
        rw [Matrix.inv_def, Matrix.adjugate_fin_one, Matrix.det_fin_one, hent z hz]
        simp
      change ∑ j, (1 - z • cmat c.Q)⁻¹ 0 j * 1 = _
      simp only [Finset.univ_unique, Fin.default_eq_zero, Finset.sum_singleton, mul_one]
      exact hinv
    rw [hfac _ rfl]
    have hexp : (-1:ℂ) * ((n * (2 / n) : ℝ) : ℂ) = ((-2 : ℝ) : ℂ) := by
      rw [mul_div_cancel₀ _ hn0.ne']
      push_cast
      ring
    rw [hexp, ← Complex.ofReal_exp, ← Complex.ofReal_inv, ← Complex.ofReal_pow, mul_one, one_mul,
      ← Complex.ofReal_sub, Complex.norm_real, Real.norm_eq_abs]
    refine le_trans ?_ (le_abs_self _)
    have h1 : (1 + 1 / (n:ℝ)) ^ n ≤ Real.exp 1 := by
      have := Real.add_one_le_exp (1 / (n:ℝ))
      calc (1 + 1 / (n:ℝ)) ^ n ≤ (Real.exp (1 / n)) ^ n :=
            pow_le_pow_left₀ (by positivity) (by linarith) n
        _ = Real.exp 1 := by rw [← Real.exp_nat_mul, mul_one_div_cancel hn0.ne']
    have h2 : (Real.exp 1)⁻¹ ≤ ((1 + 1 / (n:ℝ))⁻¹) ^ n := by
      rw [inv_pow]
      exact inv_anti₀ (by positivity) h1
    have h3 : Real.exp (-2) = (Real.exp 1)⁻¹ * (Real.exp 1)⁻¹ := by
      rw [← Real.exp_neg, ← Real.exp_add]; norm_num
    have h4 := Real.exp_one_gt_d9
    have h5 := Real.exp_one_lt_d9
    rw [h3]
    have h6 : (Real.exp 1)⁻¹ ≤ 10 / 27 := by
      rw [inv_le_comm₀ (by positivity) (by norm_num)]; norm_num; linarith
    have h7 : (10:ℝ) / 28 ≤ (Real.exp 1)⁻¹ := by
      rw [le_inv_comm₀ (by norm_num) (by positivity)]; norm_num; linarith
    nlinarith
  refine ⟨?_, main, fun hconv => ?_⟩
  · have := (C61_bounds 1 "EQUID" "GAUSS" 2 K "BE" "LASTNODE").1
    refine le_trans ?_ this
    unfold baseOrderSDC
    have h0 : (K:ℤ) > 0 := by omega
    simp only [h0, if_true]
    split_ifs <;> omega
  · obtain ⟨C, N, h⟩ := hconv (-1) 1 2
    obtain ⟨m, hm⟩ := exists_nat_gt (5 * C)
    obtain ⟨e, he, hle⟩ := h (max N (m + 1)) (le_max_left _ _)
    obtain ⟨e', he', hle'⟩ := main (max N (m + 1)) (by omega)
    have : e = e' := by
      have := he.symm.trans he'
      simpa using this
    subst this
    have hpos : (0:ℝ) < (max N (m + 1) : ℕ) := by exact_mod_cast (by omega : 0 < max N (m + 1))
    have hge : (m:ℝ) ≤ (max N (m + 1) : ℕ) := by exact_mod_cast (by omega : m ≤ max N (m + 1))
    have := hle'.trans hle
    rw [pow_one, le_div_iff₀ hpos] at this
    linarith

end QMat
