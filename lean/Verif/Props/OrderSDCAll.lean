import Verif.Lemmas.SDCExact
import Verif.Props.CollOrder
import Verif.Props.OrderSDC

/-!
# C61: the exact orders of SDC with one to four nodes
-/

namespace QMat

open Matrix Spec SDCArith

variable {M : ℕ}

theorem getQD_SOE (ext : ExternalNum) (c : Collocation M) (k : Option ℤ) (g : TimeStepping M)
    (hg : TimeStepping.new c.nodes 0 = .ok g) :
    getQD ext "SOE" (kwColl c) k = (do let A ← g.computeSOE; return ⟨M, A⟩) := by
  have key : (do
        let G ← (do
          let g ← TimeStepping.new c.nodes 0
          return ({ size := M, kDependent := false, compute := fun _ => g.computeSOE, shared := fun _ => false, dTau := g.dTauFE } : QDeltaGen) : PyResult QDeltaGen)
        let A ← G.getQDelta k
        return (⟨G.size, A⟩ : Σ n, Matrix (Fin n) (Fin n) ℝ)) = (do let A ← g.computeSOE; return ⟨M, A⟩ : PyResult _) := by
    rw [hg]
    rfl
  exact key

theorem isLeft_iff {qt : String} : isLeft qt = true ↔ qt = "RADAU-LEFT" ∨ qt = "LOBATTO" := by
  simp [isLeft, or_comm]

theorem isRight_iff {qt : String} : isRight qt = true ↔ qt = "RADAU-RIGHT" ∨ qt = "LOBATTO" := by
  simp [isRight, or_comm]

/-- What a run over the nodes of a collocation shows. -/
theorem runScheme_sound {α : Type} {A : Arith α} {rel : α → ℝ → Prop} (hA : A.Sound rel) {nt qt : String}
    (ext : ExternalNum) (c : Collocation M) (hc : Collocation.new M nt qt 0 1 = .ok c)
    (hleft : (∃ i, c.nodes i = 0) ↔ qt = "RADAU-LEFT" ∨ qt = "LOBATTO") {name : String} (hname : name ∈ timeNames) (D : Matrix (Fin M) (Fin M) ℝ)
    (hD : getQD ext name (kwColl c) none = .ok ⟨M, D⟩) {l : List α} (hl : VRel rel M l c.nodes) {J n : ℕ}
    {chk : List α → ℕ → List (List α) → Bool} (h : runScheme A name (isLeft qt) l J n chk = true) :
    ∃ w, VRel rel M w c.weights ∧
      ∀ i ≤ n, ∃ T, TRel rel M J T (sdcTaylor c.Q (fun _ => D) i) ∧ chk w i T = true := by
  obtain ⟨x, hM0, hs⟩ := collocation_spec hc
  obtain ⟨hmono, hbd, -, -⟩ := C24_collocation_nodes one_pos c hc
  obtain ⟨g, hg⟩ : ∃ g, TimeStepping.new c.nodes 0 = .ok g := by
    unfold TimeStepping.new
    rw [if_pos hM0]
    exact ⟨_, rfl⟩
  have one : rel (A.ofRat 1) 1 := by simpa using hA.ofRat 1
  have hw : VRel rel M (intRow A l (A.ofRat 1)) c.weights :=
    intRow_rel hA hl hmono.injective one fun P hP => hs.weights_exact one_pos P hP
  have hQ : ∀ i : Fin M, VRel rel M (intRow A l (nd A l i)) (c.Q i) := fun i =>
    intRow_rel hA hl hmono.injective (nd_rel hl i i.2) fun P hP => hs.Q_exact one_pos P hP i
  have hDe : ∀ i j : Fin M, rel (schemeA A name (isLeft qt) l i j) (D i j) := by
    intro i j
    obtain ⟨h1, h2, h3, h4, h5⟩ := getQD_time ext c none g hg
    obtain ⟨e1, e2, e3, e4, e5⟩ := schemes_rel hA hl hg i j
    have inj : ∀ {B : Matrix (Fin M) (Fin M) ℝ},
        (Except.ok ⟨M, B⟩ : PyResult (Σ n, Matrix (Fin n) (Fin n) ℝ)) = .ok ⟨M, D⟩ → D = B := by
      intro B h
      simpa using h.symm
    simp only [timeNames, List.mem_cons, List.not_mem_nil, or_false] at hname
    unfold schemeA
    rcases hname with rfl | rfl | rfl | rfl | rfl | rfl
    · rw [h1] at hD
      rw [inj hD]
      exact e1
    · rw [h2] at hD
      rw [inj hD]
      exact e2
    · rw [h3] at hD
      rw [inj hD]
      exact e3
    · rw [h4] at hD
      rw [inj hD]
      exact e4
    · rw [h5] at hD
      rw [inj hD]
      exact e5
    · obtain ⟨S, hS, hr⟩ := soe_rel hA hl hmono (fun i => (hbd i).1) hg (left := isLeft qt) fun h0 => by
        split_ifs with hq
        · obtain ⟨k, hk⟩ := hleft.mpr (isLeft_iff.mp hq)
          exact le_antisymm (hk ▸ hmono.monotone (Fin.mk_le_of_le_val (Nat.zero_le _))) (hbd _).1
        · exact lt_of_le_of_ne (hbd _).1 fun h => hq (isLeft_iff.mpr (hleft.mp ⟨_, h.symm⟩))
      rw [getQD_SOE ext c none g hg, hS] at hD
      rw [inj hD]
      exact hr i j
  refine ⟨_, hw, ?_⟩
  have hlen := hl.1
  unfold runScheme at h
  dsimp only at h
  rw [hlen] at h
  have hrow : ∀ i : Fin M, (l.map (intRow A l)).getD i [] = intRow A l (nd A l i) := by
    intro i
    have hi : (i:ℕ) < l.length := by rw [hlen]; exact i.2
    simp [nd, List.getD_eq_getElem?_getD, hi]
  have := run_sound hA (k := 0) (build_rel hDe) (build_rel (B := c.Q - D) fun i j =>
    hA.sub (by rw [hrow]; exact nd_rel (hQ i) j j.2) (hDe i j)) (start_rel hA M J c.Q _) h
  simpa using this

theorem coll_order {nt qt : String} (c : Collocation M) (hc : Collocation.new M nt qt 0 1 = .ok c) :
    c.order = some (collOrder nt qt M) := by
  obtain ⟨x, hM0, h⟩ := collocation_spec hc
  have hq := h.hqt
  have hn := h.hnt
  unfold Collocation.order collOrder
  rw [h.nodeType, h.quadType]
  simp only [NODE_TYPES, QUAD_TYPES, List.mem_cons, List.not_mem_nil, or_false] at hq hn
  have e1 : pyStartsWith "RADAU-LEFT" "RADAU" = true := by decide
  have e2 : pyStartsWith "RADAU-RIGHT" "RADAU" = true := by decide
  have e3 : pyStartsWith "LOBATTO" "RADAU" = false := by decide
  rcases hn with rfl | rfl | rfl | rfl | rfl | rfl <;> rcases hq with rfl | rfl | rfl | rfl <;>
    simp [e1, e2, e3]

theorem trueBonus_imp {nt qt : String} {K : ℤ} {name upd : String} (h : trueBonus M nt qt K name upd = true)
    (hnt : nt ∈ NODE_TYPES) :
    K ≤ 4 ∧ ∃ (d : ℕ) (l : List QuadNum), l.length = M ∧ (nt, qt, d, l) ∈ exactTable := by
  obtain ⟨o, ho, ha⟩ := List.any_eq_true.mp h
  have hc := List.all_eq_true.mp bonuses_covered o ho
  simp only [covered, Bool.and_eq_true, decide_eq_true_eq, List.all_eq_true, List.mem_filter, Bool.or_eq_true,
    List.any_eq_true] at hc
  simp only [OrderBonus.applies, Bool.and_eq_true, decide_eq_true_eq, Bool.or_eq_true] at ha
  obtain ⟨⟨h1, h2⟩, h3⟩ := hc
  obtain ⟨⟨⟨⟨⟨a1, a2⟩, a3⟩, a4⟩, a5⟩, a6⟩ := ha
  obtain ⟨⟨nt', qt', d, l⟩, he, ⟨e1, e2⟩, e3⟩ := h3 nt ⟨hnt, a5⟩ qt (a6.resolve_left h2)
  dsimp only at e1 e2 e3
  subst e1 e2
  exact ⟨by omega, d, l, by omega, he⟩

theorem nodes_entry {nt qt : String} (hM : M ≤ 4) (c : Collocation M)
    (hc : Collocation.new M nt qt 0 1 = .ok c) : ∃ ms : List ℕ, ms.length = M ∧ (nt, qt, ms) ∈ nodeTable := by
  obtain ⟨x, hM0, h⟩ := collocation_spec hc
  have hv := validSize_of_getNodes h.getNodes
  have hcov := nodes_covered
  simp only [List.all_eq_true, Bool.or_eq_true, Bool.and_eq_true, decide_eq_true_eq, List.any_eq_true] at hcov
  have hm : M ∈ [1, 2, 3, 4] := by
    have : M = 1 ∨ M = 2 ∨ M = 3 ∨ M = 4 := by omega
    simpa using this
  rcases hcov nt h.hnt qt h.hqt M hm with ⟨h1, h2⟩ | ⟨⟨nt', qt', ms⟩, he, ⟨e1, e2⟩, e3⟩
  · have := hv.2 (isLeft_iff.mp h2).symm
    omega
  · dsimp only at e1 e2 e3
    subst e1 e2
    exact ⟨ms, e3, he⟩

/-- The order conditions that hold. -/
theorem true_linearOrder {nt qt : String} (ext : ExternalNum) (hM : M ≤ 4) (c : Collocation M)
    (hc : Collocation.new M nt qt 0 1 = .ok c) {name : String} (hname : name ∈ timeNames)
    (A : Matrix (Fin M) (Fin M) ℝ) (hA : getQD ext name (kwColl c) none = .ok ⟨M, A⟩) (K : ℕ) :
    SDCLinearOrder c.Q (fun _ => A) K (some c.weights)
      (trueOrderSDC M nt qt (collOrder nt qt M) K name "QUADRATURE").toNat ∧
    (qt = "RADAU-RIGHT" ∨ qt = "LOBATTO" → SDCLinearOrder c.Q (fun _ => A) K none
      (trueOrderSDC M nt qt (collOrder nt qt M) K name "LASTNODE").toNat) := by
  obtain ⟨ms, hlen, he⟩ := nodes_entry hM c hc
  obtain ⟨-, x, hx, hun⟩ := nodes_enclosed c hc hlen he
  obtain ⟨x', hM0, h⟩ := collocation_spec hc
  have hun' : ∀ i, c.nodes i = 0 + (1 - 0) * ((x i + 1) / 2) := fun i => by rw [hun]; ring
  obtain ⟨order, ho, -, hex⟩ := C28_quadrature_order_unmoved one_pos c hc x hx hun'
  obtain rfl : order = collOrder nt qt M := by
    rw [coll_order c hc] at ho
    simpa using ho.symm
  have hleft := (C24_boundary_nodes_unmoved one_pos c hc x hx hun').1
  have htrap : name ∈ ["TRAPAR", "TRAP"] → IsTrapezoidal c A := by
    intro hq
    obtain ⟨g, hg⟩ : ∃ g, TimeStepping.new c.nodes 0 = .ok g := by
      unfold TimeStepping.new
      rw [if_pos hM0]
      exact ⟨_, rfl⟩
    obtain ⟨-, -, h3, -, h5⟩ := getQD_time ext c none g hg
    simp only [List.mem_cons, List.not_mem_nil, or_false] at hq
    rcases hq with rfl | rfl
    · rw [h5] at hA
      exact ⟨g, hg, Or.inr (by simpa using hA.symm)⟩
    · rw [h3] at hA
      exact ⟨g, hg, Or.inl (by simpa using hA.symm)⟩
  obtain ⟨b1, b2⟩ := base_linearOrder c hc K (fun _ => A) name htrap _ hex
  have exact_run : ∀ upd, trueBonus M nt qt K name upd = true → ∃ d w T,
      VRel (QuadNum.Rel d) M w c.weights ∧
      TRel (QuadNum.Rel d) M (collOrder nt qt M + 2) T (sdcTaylor c.Q (fun _ => A) K) ∧
      exactCheck M nt qt (collOrder nt qt M) name w d K T = true := by
    intro upd hb
    obtain ⟨hK, d, l, hl, hel⟩ := trueBonus_imp hb h.hnt
    have hrun := List.all_eq_true.mp (List.all_eq_true.mp exact_table _ hel) name hname
    rw [hl] at hrun
    obtain ⟨w, hw, hT⟩ := runScheme_sound (QuadNum.sound d) ext c hc hleft hname A hA
      (exact_nodes c hc hlen he hl hel) hrun
    obtain ⟨T, hT, hchk⟩ := hT K (by omega)
    exact ⟨d, w, T, hw, hT, hchk⟩
  constructor
  · by_cases hb : trueBonus M nt qt K name "QUADRATURE" = true
    · obtain ⟨d, w, T, hw, hT, hchk⟩ := exact_run _ hb
      simp only [exactCheck, hb, Bool.not_true, Bool.false_or, Bool.and_eq_true, List.all_eq_true,
        List.mem_range, decide_eq_true_eq] at hchk
      intro j hj
      cases j with
      | zero => simp [sdcFactorTaylor]
      | succ j =>
        obtain ⟨hj1, hj2⟩ := hchk.1 j hj
        have hjT : j < T.length := by rw [hT.1]; omega
        have hrel := dot_rel (QuadNum.sound d) hw (hT.2 j T[j] (List.getElem?_eq_getElem hjT))
        rw [quadCoeff, List.getD_eq_getElem?_getD, List.getElem?_eq_getElem hjT, Option.getD_some] at hj2
        rw [sdcFactorTaylor, QuadNum.isRat_sound d hj2 hrel]
        push_cast
        rfl
    · rw [trueOrderSDC, if_neg hb, add_zero]
      exact b1
  · intro hr
    by_cases hb : trueBonus M nt qt K name "LASTNODE" = true
    · obtain ⟨d, w, T, hw, hT, hchk⟩ := exact_run _ hb
      simp only [exactCheck, hb, Bool.not_true, Bool.false_or, Bool.and_eq_true, List.all_eq_true,
        List.mem_range, decide_eq_true_eq] at hchk
      intro j hj
      obtain ⟨hj1, hj2⟩ := hchk.2 j (by omega)
      have hjT : j < T.length := by rw [hT.1]; omega
      have hrel := nd_rel (A := QuadNum.arith d) (hT.2 j T[j] (List.getElem?_eq_getElem hjT)) (M - 1) (by omega)
      rw [lastCoeff, List.getD_eq_getElem?_getD, List.getElem?_eq_getElem hjT, Option.getD_some] at hj2
      rw [sdcFactorTaylor, dif_pos hM0, QuadNum.isRat_sound d hj2 hrel]
      push_cast
      rfl
    · rw [trueOrderSDC, if_neg hb, add_zero]
      exact b2 hr

/-- The first order condition that does not hold. -/
theorem true_notFaster {nt qt : String} (ext : ExternalNum) (hM : M ≤ 4) (c : Collocation M)
    (hc : Collocation.new M nt qt 0 1 = .ok c) {name : String} (hname : name ∈ timeNames)
    (A : Matrix (Fin M) (Fin M) ℝ) (hA : getQD ext name (kwColl c) none = .ok ⟨M, A⟩) (K : ℕ) :
    (∃ p : ℕ, (p:ℤ) = trueOrderSDC M nt qt (collOrder nt qt M) K name "QUADRATURE" ∧ 0 < p ∧
      sdcFactorTaylor c.Q (fun _ => A) K (some c.weights) (p + 1) ≠ 1 / (p + 1).factorial) ∧
    (0 < K → qt = "RADAU-RIGHT" ∨ qt = "LOBATTO" →
      ∃ p : ℕ, (p:ℤ) = trueOrderSDC M nt qt (collOrder nt qt M) K name "LASTNODE" ∧ 0 < p ∧
        sdcFactorTaylor c.Q (fun _ => A) K none (p + 1) ≠ 1 / (p + 1).factorial) := by
  obtain ⟨ms, hlen, he⟩ := nodes_entry hM c hc
  obtain ⟨hball, x, hx, hun⟩ := nodes_enclosed c hc hlen he
  obtain ⟨x', hM0, h⟩ := collocation_spec hc
  have hun' : ∀ i, c.nodes i = 0 + (1 - 0) * ((x i + 1) / 2) := fun i => by rw [hun]; ring
  have hleft := (C24_boundary_nodes_unmoved one_pos c hc x hx hun').1
  have hrun := List.all_eq_true.mp (List.all_eq_true.mp notFaster_table _ he) name hname
  dsimp only at hrun
  rw [hlen] at hrun
  obtain ⟨w, hw, hT⟩ := runScheme_sound Ball.sound ext c hc hleft hname A hA hball hrun
  set order := collOrder nt qt M with horder
  set n := max (order + 1) 5 with hn
  obtain ⟨T, hT, hchk⟩ := hT (min K n) (min_le_right _ _)
  -- more sweeps change nothing
  have hsame : ∀ upd, trueOrderSDC M nt qt order K name upd =
      trueOrderSDC M nt qt order ((min K n : ℕ) : ℤ) name upd := by
    intro upd
    rcases le_total K n with hK | hK
    · rw [min_eq_left hK]
    · rw [min_eq_right hK]
      have nob : ∀ k : ℕ, n ≤ k → trueBonus M nt qt k name upd = false := by
        intro k hk
        by_contra hb
        have := (trueBonus_imp (by simpa using hb) h.hnt).1
        omega
      have base : ∀ k : ℕ, n ≤ k → baseOrderSDC order k name upd = order := by
        intro k hk
        unfold baseOrderSDC
        have : (k:ℤ) > 0 := by omega
        simp only [this, if_true]
        split_ifs <;> omega
      rw [trueOrderSDC, trueOrderSDC, nob K hK, nob n le_rfl, base K hK, base n le_rfl]
  have htay : ∀ j, j ≤ order + 2 → (n < K → j ≤ order + 1) →
      sdcTaylor c.Q (fun _ => A) (min K n) j = sdcTaylor c.Q (fun _ => A) K j := by
    intro j hj hj'
    rcases le_or_gt K n with hK | hK
    · rw [min_eq_left hK]
    · rw [min_eq_right hK.le, sdcTaylor_eq _ _ _ _ (by have := hj' hK; omega),
        sdcTaylor_eq _ _ _ _ (by have := hj' hK; omega)]
  have hle : ∀ upd, n < K → trueOrderSDC M nt qt order ((min K n : ℕ) : ℤ) name upd ≤ order := by
    intro upd hK
    have nob : trueBonus M nt qt ((min K n : ℕ) : ℤ) name upd = false := by
      by_contra hb
      have := (trueBonus_imp (by simpa using hb) h.hnt).1
      omega
    rw [trueOrderSDC, nob]
    have : baseOrderSDC order ((min K n : ℕ) : ℤ) name upd ≤ order := min_le_left _ _
    simpa using this
  simp only [ballCheck, Bool.and_eq_true, Bool.or_eq_true, decide_eq_true_eq] at hchk
  obtain ⟨⟨⟨q1, q2⟩, q3⟩, hl⟩ := hchk
  constructor
  · rw [hsame]
    have hp := hle "QUADRATURE"
    generalize trueOrderSDC M nt qt order ((min K n : ℕ) : ℤ) name "QUADRATURE" = t at *
    refine ⟨t.toNat, by omega, q1, ?_⟩
    have hjT : t.toNat < T.length := by rw [hT.1]; omega
    have hrel := dot_rel Ball.sound hw (hT.2 _ T[t.toNat] (List.getElem?_eq_getElem hjT))
    rw [quadCoeff, List.getD_eq_getElem?_getD, List.getElem?_eq_getElem hjT, Option.getD_some] at q3
    rw [sdcFactorTaylor, ← htay _ (by omega) (fun hK => by have := hp hK; omega)]
    exact Ball.avoids_sound (Nat.factorial_pos _) q3 hrel
  · intro hK0 hr
    have hl := hl.resolve_left (by
      rw [isRight_iff.mpr hr]
      simp
      omega)
    rw [hsame]
    have hp := hle "LASTNODE"
    generalize trueOrderSDC M nt qt order ((min K n : ℕ) : ℤ) name "LASTNODE" = t at *
    obtain ⟨⟨q1, q2⟩, q3⟩ := hl
    refine ⟨t.toNat, by omega, q1, ?_⟩
    have hjT : t.toNat + 1 < T.length := by rw [hT.1]; omega
    have hrel := nd_rel (A := Ball.arith) (hT.2 _ T[t.toNat + 1] (List.getElem?_eq_getElem hjT)) (M - 1)
      (by omega)
    rw [lastCoeff, List.getD_eq_getElem?_getD, List.getElem?_eq_getElem hjT, Option.getD_some] at q3
    rw [sdcFactorTaylor, dif_pos hM0, ← htay _ (by omega) (fun hK => by have := hp hK; omega)]
    exact Ball.avoids_sound (Nat.factorial_pos _) q3 hrel

/-- C61, one to four nodes: for all node types, all quadrature types, the six time stepping types and any
number of sweeps, the exact order of SDC is `trueOrderSDC`, the base order of C60 and one more in the
thirteen rows of `trueBonuses`: the errors are at most and, for every nontrivial problem, at least a
multiple of `nSteps^{-p}`. -/
theorem C61_exact {nt qt : String} (ext : ExternalNum) (hM : M ≤ 4) (c : Collocation M)
    (hc : Collocation.new M nt qt 0 1 = .ok c) {name : String}
    (hname : name ∈ ["BE", "FE", "TRAP", "BEPAR", "TRAPAR", "SOE"]) (A : Matrix (Fin M) (Fin M) ℝ)
    (hA : getQD ext name (kwColl c) none = .ok ⟨M, A⟩) (K : ℕ) :
    ∃ order, c.order = some order ∧
    ∀ upd w, (upd = "QUADRATURE" ∧ w = some c.weights ∨
        upd = "LASTNODE" ∧ w = none ∧ 0 < K ∧ (qt = "RADAU-RIGHT" ∨ qt = "LOBATTO")) →
      ∃ p : ℕ, (p : ℤ) = trueOrderSDC M nt qt order K name upd ∧
        SDCConverges c.Q (.mat M M A) K w p ∧ SDCNotFaster c.Q (.mat M M A) K w p := by
  obtain ⟨x, hM0, -⟩ := collocation_spec hc
  have hSQD : SweepMatrices M (K:ℤ) (.mat M M A) (fun _ => A) := .same K A
  obtain ⟨l1, l2⟩ := true_linearOrder ext hM c hc hname A hA K
  obtain ⟨n1, n2⟩ := true_notFaster ext hM c hc hname A hA K
  refine ⟨_, coll_order c hc, ?_⟩
  rintro upd w (⟨rfl, rfl⟩ | ⟨rfl, rfl, hK0, hr⟩)
  · obtain ⟨p, hp, h0, hne⟩ := n1
    rw [← hp, Int.toNat_natCast] at l1
    have crit := C60_criterion c.Q _ K _ hSQD (some c.weights) (by simp) _ l1
    exact ⟨p, hp, crit.1, crit.2 h0 hne⟩
  · obtain ⟨p, hp, h0, hne⟩ := n2 hK0 hr
    have l2 := l2 hr
    rw [← hp, Int.toNat_natCast] at l2
    have crit := C60_criterion c.Q _ K _ hSQD none (fun _ => hM0) _ l2
    exact ⟨p, hp, crit.1, crit.2 h0 hne⟩

/-! ## Comparison with `getOrderSDC` -/

/-- The configurations in which `getOrderSDC` announces more than the exact order, and by how much. -/
def overstatements : List OrderBonus := [
  ⟨0, "QUADRATURE", "BE", 3, 3, ["CHEBY-3"], ["RADAU-LEFT"], 1⟩,
  ⟨0, "QUADRATURE", "BE", 3, 3, ["CHEBY-4"], ["RADAU-RIGHT"], 1⟩,
  ⟨0, "QUADRATURE", "FE", 3, 3, ["CHEBY-1", "CHEBY-4"], ["RADAU-RIGHT"], 1⟩,
  ⟨0, "QUADRATURE", "FE", 3, 3, ["CHEBY-3"], ["RADAU-LEFT", "LOBATTO"], 1⟩,
  ⟨0, "QUADRATURE", "TRAP", 2, 4, ["CHEBY-2", "CHEBY-4"], ["LOBATTO"], 1⟩,
  ⟨0, "QUADRATURE", "TRAP", 2, 4, ["CHEBY-3"], ["RADAU-LEFT"], 1⟩,
  ⟨0, "QUADRATURE", "TRAP", 2, 4, ["CHEBY-4"], ["RADAU-RIGHT"], 1⟩,
  ⟨0, "QUADRATURE", "BEPAR", 3, 3, ["EQUID", "CHEBY-1", "CHEBY-2", "CHEBY-3", "CHEBY-4"], ["RADAU-LEFT"], 1⟩,
  ⟨0, "QUADRATURE", "BEPAR", 3, 3, ["CHEBY-1", "CHEBY-2", "CHEBY-3", "CHEBY-4"], ["RADAU-RIGHT"], 1⟩,
  ⟨0, "QUADRATURE", "BEPAR", 3, 3, ["CHEBY-3", "CHEBY-4"], ["GAUSS", "LOBATTO"], 1⟩,
  ⟨0, "QUADRATURE", "TRAPAR", 2, 3, ["CHEBY-3"], ["RADAU-LEFT"], 1⟩,
  ⟨0, "QUADRATURE", "TRAPAR", 2, 3, ["CHEBY-4"], ["RADAU-RIGHT"], 1⟩,
  ⟨0, "QUADRATURE", "TRAPAR", 3, 3, ["CHEBY-3"], ["RADAU-LEFT"], 1⟩,
  ⟨0, "QUADRATURE", "TRAPAR", 3, 4, ["EQUID", "CHEBY-1", "CHEBY-2", "CHEBY-3", "CHEBY-4"], ["GAUSS", "RADAU-LEFT", "RADAU-RIGHT", "LOBATTO"], 1⟩,
  ⟨0, "QUADRATURE", "SOE", 1, 4, ["CHEBY-2"], ["LOBATTO"], 1⟩,
  ⟨0, "QUADRATURE", "SOE", 2, 4, ["CHEBY-4"], ["RADAU-LEFT"], 1⟩,
  ⟨0, "QUADRATURE", "SOE", 3, 3, ["CHEBY-1", "CHEBY-4"], ["RADAU-RIGHT"], 1⟩,
  ⟨0, "QUADRATURE", "SOE", 3, 3, ["CHEBY-3"], ["RADAU-LEFT", "LOBATTO"], 1⟩,
  ⟨0, "QUADRATURE", "SOE", 3, 3, ["CHEBY-4"], ["GAUSS"], 1⟩,
  ⟨0, "QUADRATURE", "SOE", 3, 4, ["CHEBY-2"], ["RADAU-LEFT"], 1⟩,
  ⟨0, "QUADRATURE", "SOE", 3, 4, ["CHEBY-4"], ["GAUSS"], 1⟩,
  ⟨0, "LASTNODE", "BE", 4, 3, ["CHEBY-4"], ["RADAU-RIGHT"], 1⟩,
  ⟨0, "LASTNODE", "FE", 4, 3, ["CHEBY-4"], ["RADAU-RIGHT"], 1⟩,
  ⟨0, "LASTNODE", "TRAP", 2, 3, ["LEGENDRE"], ["RADAU-RIGHT"], 1⟩,
  ⟨0, "LASTNODE", "TRAP", 2, 4, ["EQUID", "CHEBY-3", "CHEBY-4"], ["LOBATTO"], 1⟩,
  ⟨0, "LASTNODE", "TRAP", 2, 4, ["LEGENDRE", "CHEBY-1", "CHEBY-2", "CHEBY-4"], ["RADAU-RIGHT"], 1⟩,
  ⟨0, "LASTNODE", "TRAP", 3, 3, ["LEGENDRE"], ["RADAU-RIGHT"], 1⟩,
  ⟨0, "LASTNODE", "TRAP", 4, 4, ["LEGENDRE"], ["RADAU-RIGHT"], 2⟩,
  ⟨0, "LASTNODE", "BEPAR", 3, 2, ["CHEBY-2"], ["RADAU-RIGHT"], 1⟩,
  ⟨0, "LASTNODE", "BEPAR", 4, 3, ["EQUID", "CHEBY-1", "CHEBY-2", "CHEBY-3", "CHEBY-4"], ["RADAU-RIGHT"], 1⟩,
  ⟨0, "LASTNODE", "BEPAR", 4, 3, ["CHEBY-3", "CHEBY-4"], ["LOBATTO"], 1⟩,
  ⟨0, "LASTNODE", "TRAPAR", 3, 3, ["CHEBY-4"], ["RADAU-RIGHT"], 1⟩,
  ⟨0, "LASTNODE", "TRAPAR", 4, 4, ["EQUID", "CHEBY-1", "CHEBY-2", "CHEBY-3", "CHEBY-4"], ["RADAU-RIGHT", "LOBATTO"], 1⟩,
  ⟨0, "LASTNODE", "SOE", 2, 3, ["LEGENDRE"], ["RADAU-RIGHT"], 1⟩,
  ⟨0, "LASTNODE", "SOE", 2, 4, ["CHEBY-4"], ["RADAU-RIGHT"], 1⟩,
  ⟨0, "LASTNODE", "SOE", 3, 3, ["LEGENDRE"], ["RADAU-RIGHT"], 1⟩,
  ⟨0, "LASTNODE", "SOE", 3, 4, ["CHEBY-2"], ["RADAU-RIGHT"], 1⟩,
  ⟨0, "LASTNODE", "SOE", 4, 3, ["LEGENDRE", "CHEBY-3", "CHEBY-4"], ["RADAU-RIGHT"], 1⟩,
  ⟨0, "LASTNODE", "SOE", 4, 3, ["CHEBY-4"], ["LOBATTO"], 1⟩,
  ⟨0, "LASTNODE", "SOE", 4, 4, ["EQUID", "CHEBY-2"], ["RADAU-RIGHT"], 1⟩,
  ⟨0, "LASTNODE", "SOE", 4, 4, ["LEGENDRE"], ["LOBATTO"], 1⟩]

/-- Announced order minus exact order; the last summand is the one case of an order that is too small. -/
def announcedExcess (M : ℕ) (nt qt : String) (K : ℤ) (name upd : String) : ℤ :=
  ((overstatements.map fun o => if o.applies M nt qt K name upd then o.bonus else 0).sum : ℕ) -
  if M = 1 ∧ K = 1 ∧ name ∈ ["TRAP", "TRAPAR"] ∧ upd = "LASTNODE" ∧ qt = "RADAU-RIGHT" then 1 else 0

theorem announced_table : (NODE_TYPES.all fun nt => QUAD_TYPES.all fun qt => [1, 2, 3, 4].all fun M =>
    timeNames.all fun name => ["QUADRATURE", "LASTNODE"].all fun upd => (List.range 5).all fun K =>
      (upd = "LASTNODE" && (!isRight qt || K = 0)) || (M = 1 && isLeft qt) ||
      decide (getOrderSDC M nt qt (collOrder nt qt M) K name upd =
        trueOrderSDC M nt qt (collOrder nt qt M) K name upd + announcedExcess M nt qt K name upd)) = true := by
  decide +kernel

theorem overstatements_sweeps : (overstatements.all fun o => decide (o.nSweeps ≤ 4)) = true := by decide +kernel

/-- C61: `getOrderSDC` announces the exact order for one to four nodes, except for the rows of
`overstatements` (97 configurations, one or two too many) and for one node at the end of the step with one
trapezoidal sweep (one too few).  From five sweeps on it is the exact order, the one of the collocation. -/
theorem C61_announced {nt qt : String} (ext : ExternalNum) (hM : M ≤ 4) (c : Collocation M)
    (hc : Collocation.new M nt qt 0 1 = .ok c) {name : String}
    (hname : name ∈ ["BE", "FE", "TRAP", "BEPAR", "TRAPAR", "SOE"]) (A : Matrix (Fin M) (Fin M) ℝ)
    (hA : getQD ext name (kwColl c) none = .ok ⟨M, A⟩) (K : ℕ) :
    ∃ order, c.order = some order ∧
    ∀ upd w, (upd = "QUADRATURE" ∧ w = some c.weights ∨
        upd = "LASTNODE" ∧ w = none ∧ 0 < K ∧ (qt = "RADAU-RIGHT" ∨ qt = "LOBATTO")) →
      ∃ p : ℕ, (p : ℤ) = getOrderSDC M nt qt order K name upd - announcedExcess M nt qt K name upd ∧
        (5 ≤ K → announcedExcess M nt qt K name upd = 0) ∧
        SDCConverges c.Q (.mat M M A) K w p ∧ SDCNotFaster c.Q (.mat M M A) K w p := by
  obtain ⟨x, hM0, h⟩ := collocation_spec hc
  have hv := validSize_of_getNodes h.getNodes
  obtain ⟨order, ho, hex⟩ := C61_exact ext hM c hc hname A hA K
  obtain rfl : order = collOrder nt qt M := by
    rw [coll_order c hc] at ho
    simpa using ho.symm
  refine ⟨_, ho, fun upd w hw => ?_⟩
  obtain ⟨p, hp, h1, h2⟩ := hex upd w hw
  have hz : 5 ≤ K → announcedExcess M nt qt K name upd = 0 := by
    intro hK
    have e : (overstatements.map fun o => if o.applies M nt qt K name upd then o.bonus else 0).sum = 0 := by
      rw [List.sum_eq_zero]
      intro y hy
      obtain ⟨o, hmem, rfl⟩ := List.mem_map.mp hy
      have := List.all_eq_true.mp overstatements_sweeps o hmem
      rw [if_neg]
      intro ha
      simp only [OrderBonus.applies, Bool.and_eq_true, decide_eq_true_eq] at ha this
      have := ha.1.1.1.2
      omega
    rw [announcedExcess, e, if_neg (by omega)]
    simp
  refine ⟨p, ?_, hz, h1, h2⟩
  rw [hp]
  by_cases hK : K < 5
  · have hm : M ∈ [1, 2, 3, 4] := by
      have : M = 1 ∨ M = 2 ∨ M = 3 ∨ M = 4 := by omega
      simpa using this
    have hu : upd ∈ ["QUADRATURE", "LASTNODE"] := by
      rcases hw with ⟨rfl, -⟩ | ⟨rfl, -⟩ <;> simp
    have := announced_table
    simp only [List.all_eq_true] at this
    have := this nt h.hnt qt h.hqt M hm name hname upd hu K (List.mem_range.mpr hK)
    simp only [Bool.or_eq_true, Bool.and_eq_true, decide_eq_true_eq] at this
    rcases this with (⟨rfl, h'⟩ | ⟨rfl, h'⟩) | this
    · rcases hw with ⟨h, -⟩ | ⟨-, -, hK0, hr⟩
      · exact absurd h (by decide)
      · rw [isRight_iff.mpr hr] at h'
        simp at h'
        omega
    · have := hv.2 (isLeft_iff.mp h').symm
      omega
    · omega
  · rw [hz (by omega), sub_zero, (C61_bounds M nt qt _ K name upd).2.2.2.1 (by omega), trueOrderSDC]
    have : trueBonus M nt qt K name upd = false := by
      by_contra hb
      have := (trueBonus_imp (by simpa using hb) h.hnt).1
      omega
    rw [this]
    simp

/-- The six types can be built on every collocation with one to four nodes. -/
theorem getQD_time_ok {nt qt : String} (ext : ExternalNum) (c : Collocation M)
    (hc : Collocation.new M nt qt 0 1 = .ok c) {name : String}
    (hname : name ∈ ["BE", "FE", "TRAP", "BEPAR", "TRAPAR", "SOE"]) :
    ∃ A, getQD ext name (kwColl c) none = .ok ⟨M, A⟩ := by
  obtain ⟨x, hM0, h⟩ := collocation_spec hc
  obtain ⟨hmono, hbd, -, -⟩ := C24_collocation_nodes one_pos c hc
  obtain ⟨g, hg⟩ : ∃ g, TimeStepping.new c.nodes 0 = .ok g := by
    unfold TimeStepping.new
    rw [if_pos hM0]
    exact ⟨_, rfl⟩
  obtain ⟨h1, h2, h3, h4, h5⟩ := getQD_time ext c none g hg
  simp only [List.mem_cons, List.not_mem_nil, or_false] at hname
  rcases hname with rfl | rfl | rfl | rfl | rfl | rfl
  · exact ⟨_, h1⟩
  · exact ⟨_, h2⟩
  · exact ⟨_, h3⟩
  · exact ⟨_, h4⟩
  · exact ⟨_, h5⟩
  · obtain ⟨a, ha, -⟩ := soe_alpha hmono (fun i => (hbd i).1) hg
    obtain ⟨R, hR, -⟩ := computeSOE_rows g a ha
    rw [getQD_SOE ext c none g hg, hR]
    exact ⟨_, rfl⟩

/-- Instance: four Gauss-Lobatto nodes (with `√5`), four trapezoidal sweeps, last node: order six. -/
example (ext : ExternalNum) : ∃ (c : Collocation 4) (A : Matrix (Fin 4) (Fin 4) ℝ),
    Collocation.new 4 "LEGENDRE" "LOBATTO" 0 1 = .ok c ∧ getQD ext "TRAP" (kwColl c) none = .ok ⟨4, A⟩ ∧
    SDCConverges c.Q (.mat 4 4 A) 4 none 6 ∧ SDCNotFaster c.Q (.mat 4 4 A) 4 none 6 := by
  obtain ⟨c, hc⟩ := collocation_new_ok (M := 4) (nt := "LEGENDRE") (qt := "LOBATTO") (by decide)
    (by decide) ⟨by decide, by decide⟩ 0 1
  obtain ⟨A, hA⟩ := getQD_time_ok ext c hc (name := "TRAP") (by decide)
  obtain ⟨order, ho, h⟩ := C61_exact ext (by norm_num) c hc (name := "TRAP") (by decide) _ hA 4
  obtain rfl : order = 6 := by rw [coll_order c hc] at ho; exact (Option.some.inj ho).symm
  obtain ⟨p, hp, h1, h2⟩ := h "LASTNODE" none (Or.inr ⟨rfl, rfl, by norm_num, Or.inr rfl⟩)
  have e : trueOrderSDC 4 "LEGENDRE" "LOBATTO" 6 ((4:ℕ):ℤ) "TRAP" "LASTNODE" = 6 := by decide +kernel
  rw [e] at hp
  obtain rfl : p = 6 := by omega
  exact ⟨c, A, hc, hA, h1, h2⟩

/-- C61, finding: for four Gauss-Radau nodes, four trapezoidal sweeps and the last node, `getOrderSDC`
announces 7; the exact order is 5. -/
theorem C61_overstated_fails (ext : ExternalNum) : ∃ (c : Collocation 4) (A : Matrix (Fin 4) (Fin 4) ℝ),
    Collocation.new 4 "LEGENDRE" "RADAU-RIGHT" 0 1 = .ok c ∧ c.order = some 7 ∧
    getQD ext "TRAP" (kwColl c) none = .ok ⟨4, A⟩ ∧
    getOrderSDC 4 "LEGENDRE" "RADAU-RIGHT" 7 4 "TRAP" "LASTNODE" = 7 ∧
    SDCConverges c.Q (.mat 4 4 A) 4 none 5 ∧ ¬ SDCConverges c.Q (.mat 4 4 A) 4 none 6 := by
  obtain ⟨c, hc⟩ := collocation_new_ok (M := 4) (nt := "LEGENDRE") (qt := "RADAU-RIGHT") (by decide)
    (by decide) ⟨by decide, by decide⟩ 0 1
  obtain ⟨A, hA⟩ := getQD_time_ok ext c hc (name := "TRAP") (by decide)
  obtain ⟨order, ho, h⟩ := C61_exact ext (by norm_num) c hc (name := "TRAP") (by decide) _ hA 4
  obtain rfl : order = 7 := by rw [coll_order c hc] at ho; exact (Option.some.inj ho).symm
  obtain ⟨p, hp, h1, h2⟩ := h "LASTNODE" none (Or.inr ⟨rfl, rfl, by norm_num, Or.inl rfl⟩)
  have e : trueOrderSDC 4 "LEGENDRE" "RADAU-RIGHT" 7 ((4:ℕ):ℤ) "TRAP" "LASTNODE" = 5 := by decide +kernel
  rw [e] at hp
  obtain rfl : p = 5 := by omega
  exact ⟨c, A, hc, ho, hA, by decide +kernel, h1, h2.not_converges (by norm_num)⟩

/-- C61, finding: with one node at the end of the step, one trapezoidal sweep and the last node have order
two, `getOrderSDC` announces one (the order of the collocation). -/
theorem C61_understated_fails (ext : ExternalNum) : ∃ (c : Collocation 1) (A : Matrix (Fin 1) (Fin 1) ℝ),
    Collocation.new 1 "LEGENDRE" "RADAU-RIGHT" 0 1 = .ok c ∧ c.order = some 1 ∧
    getQD ext "TRAP" (kwColl c) none = .ok ⟨1, A⟩ ∧
    getOrderSDC 1 "LEGENDRE" "RADAU-RIGHT" 1 1 "TRAP" "LASTNODE" = 1 ∧
    SDCConverges c.Q (.mat 1 1 A) 1 none 2 := by
  obtain ⟨c, hc⟩ := collocation_new_ok (M := 1) (nt := "LEGENDRE") (qt := "RADAU-RIGHT") (by decide)
    (by decide) ⟨by decide, by decide⟩ 0 1
  obtain ⟨A, hA⟩ := getQD_time_ok ext c hc (name := "TRAP") (by decide)
  obtain ⟨order, ho, h⟩ := C61_exact ext (by norm_num) c hc (name := "TRAP") (by decide) _ hA 1
  obtain rfl : order = 1 := by rw [coll_order c hc] at ho; exact (Option.some.inj ho).symm
  obtain ⟨p, hp, h1, h2⟩ := h "LASTNODE" none (Or.inr ⟨rfl, rfl, by norm_num, Or.inl rfl⟩)
  have e : trueOrderSDC 1 "LEGENDRE" "RADAU-RIGHT" 1 ((1:ℕ):ℤ) "TRAP" "LASTNODE" = 2 := by decide +kernel
  rw [e] at hp
  obtain rfl : p = 2 := by omega
  exact ⟨c, A, hc, ho, hA, by decide +kernel, h1⟩

end QMat
