import Verif.Lemmas.SDCTableSound

/-!
# Nodes with square roots

The nodes of the configurations in which SDC is faster than `baseOrderSDC`, in `ℚ(√d)`, and the test that
the Taylor coefficients of the factor are the ones of the exponential.
-/

namespace QMat

open Matrix Polynomial Spec NodesGenerator

namespace SDCArith

variable {M : ℕ}

/-- Node type, quadrature type, `d`, nodes. -/
def exactTable : List (String × String × ℕ × List QuadNum) := [
  ("EQUID", "RADAU-LEFT", 2, [⟨0, 0⟩, ⟨1/3, 0⟩, ⟨2/3, 0⟩]),
  ("EQUID", "RADAU-RIGHT", 2, [⟨1, 0⟩]),
  ("EQUID", "RADAU-RIGHT", 2, [⟨1/2, 0⟩, ⟨1, 0⟩]),
  ("EQUID", "RADAU-RIGHT", 2, [⟨1/3, 0⟩, ⟨2/3, 0⟩, ⟨1, 0⟩]),
  ("EQUID", "RADAU-RIGHT", 2, [⟨1/4, 0⟩, ⟨1/2, 0⟩, ⟨3/4, 0⟩, ⟨1, 0⟩]),
  ("EQUID", "LOBATTO", 2, [⟨0, 0⟩, ⟨1/2, 0⟩, ⟨1, 0⟩]),
  ("EQUID", "LOBATTO", 2, [⟨0, 0⟩, ⟨1/3, 0⟩, ⟨2/3, 0⟩, ⟨1, 0⟩]),
  ("LEGENDRE", "RADAU-RIGHT", 2, [⟨1, 0⟩]),
  ("LEGENDRE", "RADAU-RIGHT", 2, [⟨1/3, 0⟩, ⟨1, 0⟩]),
  ("LEGENDRE", "LOBATTO", 2, [⟨0, 0⟩, ⟨1/2, 0⟩, ⟨1, 0⟩]),
  ("LEGENDRE", "LOBATTO", 5, [⟨0, 0⟩, ⟨1/2, -1/10⟩, ⟨1/2, 1/10⟩, ⟨1, 0⟩]),
  ("CHEBY-1", "RADAU-RIGHT", 2, [⟨1, 0⟩]),
  ("CHEBY-1", "LOBATTO", 2, [⟨0, 0⟩, ⟨1/2, 0⟩, ⟨1, 0⟩]),
  ("CHEBY-1", "LOBATTO", 2, [⟨0, 0⟩, ⟨1/4, 0⟩, ⟨3/4, 0⟩, ⟨1, 0⟩]),
  ("CHEBY-2", "RADAU-RIGHT", 2, [⟨1, 0⟩]),
  ("CHEBY-2", "LOBATTO", 2, [⟨0, 0⟩, ⟨1/2, 0⟩, ⟨1, 0⟩]),
  ("CHEBY-2", "LOBATTO", 6, [⟨0, 0⟩, ⟨1/2, -1/12⟩, ⟨1/2, 1/12⟩, ⟨1, 0⟩]),
  ("CHEBY-3", "RADAU-RIGHT", 2, [⟨1, 0⟩]),
  ("CHEBY-3", "RADAU-RIGHT", 2, [⟨1/2, 0⟩, ⟨1, 0⟩]),
  ("CHEBY-3", "RADAU-RIGHT", 2, [⟨1/2, -1/4⟩, ⟨1/2, 0⟩, ⟨1/2, 1/4⟩, ⟨1, 0⟩]),
  ("CHEBY-4", "RADAU-RIGHT", 2, [⟨1, 0⟩])]

/-- A sufficient condition for `0 < a + b √d`. -/
def posQ (d : ℕ) (a b : ℚ) : Bool :=
  (decide (0 < a) && decide (d * b ^ 2 < a ^ 2)) || (decide (0 < b) && decide (a ^ 2 < d * b ^ 2))

def increasingQ (d : ℕ) : List QuadNum → Bool
  | p :: q :: l => posQ d (q.a - p.a) (q.b - p.b) && increasingQ d (q :: l)
  | _ => true

/-- The entries are the roots of the polynomial of the nodes. -/
def exactNodesOk (e : String × String × ℕ × List QuadNum) : Bool :=
  match e with
  | (nt, qt, d, l) =>
    if nt = "EQUID" then
      (List.range l.length).all fun i =>
        QuadNum.isRat (nd (QuadNum.arith d) (l.map some) i) ((SDCRat.equid qt l.length).getD i 0)
    else
      increasingQ d l &&
      (l.all fun q => QuadNum.isRat (evalLastA (QuadNum.arith d) nt (l.length - 1)
        (lastQ nt qt (l.length - 1)) (some ⟨2 * q.a - 1, 2 * q.b⟩)) 0)

theorem exactNodes_ok : exactTable.all exactNodesOk = true := by decide +kernel

/-- Where there is a bonus, the coefficients are the ones of the exponential. -/
def exactCheck (M : ℕ) (nt qt : String) (order : ℕ) (name : String) (w : List (Option QuadNum)) (d k : ℕ)
    (T : List (List (Option QuadNum))) : Bool :=
  (!trueBonus M nt qt k name "QUADRATURE" || (List.range
    (trueOrderSDC M nt qt order k name "QUADRATURE").toNat).all fun j => decide (j ≤ order + 2) &&
      QuadNum.isRat (quadCoeff (QuadNum.arith d) w T j) (1 / ((j + 1).factorial : ℕ))) &&
  (!trueBonus M nt qt k name "LASTNODE" || (List.range
    ((trueOrderSDC M nt qt order k name "LASTNODE").toNat + 1)).all fun j => decide (j ≤ order + 2) &&
      QuadNum.isRat (lastCoeff (QuadNum.arith d) M T j) (1 / (j.factorial : ℕ)))

def exactOk (e : String × String × ℕ × List QuadNum) : Bool :=
  match e with
  | (nt, qt, d, l) =>
    let order := collOrder nt qt l.length
    timeNames.all fun name =>
      runScheme (QuadNum.arith d) name (isLeft qt) (l.map some) (order + 2) 4
        (fun w k T => exactCheck l.length nt qt order name w d k T)

set_option maxRecDepth 100000 in
theorem exact_table : exactTable.all exactOk = true := by decide +kernel

/-- Every bonus is one of the table. -/
def covered (o : OrderBonus) : Bool :=
  decide (o.nSweeps ≤ 4) && o.quadTypes ≠ [] &&
  (NODE_TYPES.filter fun t => o.nodeTypes = [] || t ∈ o.nodeTypes).all fun nt => o.quadTypes.all fun qt =>
    exactTable.any fun e => decide (e.1 = nt) && decide (e.2.1 = qt) && decide (e.2.2.2.length = o.nNodes)

theorem bonuses_covered : trueBonuses.all covered = true := by decide +kernel

/-- Every configuration is in the table of nodes. -/
theorem nodes_covered : NODE_TYPES.all (fun nt => QUAD_TYPES.all fun qt => [1, 2, 3, 4].all fun M =>
    (decide (M = 1) && isLeft qt) ||
    nodeTable.any fun e => decide (e.1 = nt) && decide (e.2.1 = qt) && decide (e.2.2.length = M)) = true := by
  decide +kernel

theorem posQ_sound {d : ℕ} {a b : ℚ} (h : posQ d a b = true) : (0:ℝ) < a + b * √(d:ℝ) := by
  have hs : √(d:ℝ) ^ 2 = d := Real.sq_sqrt (by positivity)
  have h0 : 0 ≤ √(d:ℝ) := Real.sqrt_nonneg _
  simp only [posQ, Bool.or_eq_true, Bool.and_eq_true, decide_eq_true_eq] at h
  rcases h with ⟨h1, h2⟩ | ⟨h1, h2⟩
  · have h1 : (0:ℝ) < a := by exact_mod_cast h1
    have h2 : (d:ℝ) * b ^ 2 < a ^ 2 := by exact_mod_cast h2
    have : |(b:ℝ) * √(d:ℝ)| < a := by
      refine abs_lt_of_sq_lt_sq ?_ h1.le
      rw [mul_pow, hs]
      linarith
    linarith [(abs_lt.mp this).1]
  · have h1 : (0:ℝ) < b := by exact_mod_cast h1
    have h2 : (a:ℝ) ^ 2 < d * b ^ 2 := by exact_mod_cast h2
    have : |(a:ℝ)| < b * √(d:ℝ) := by
      refine abs_lt_of_sq_lt_sq ?_ (by positivity)
      rw [mul_pow, hs]
      linarith
    linarith [(abs_lt.mp this).1]

theorem increasingQ_sound {d : ℕ} {l : List QuadNum} (h : increasingQ d l = true) (i : ℕ) (hi : i + 1 < l.length) :
    (l[i]).val d < (l[i + 1]).val d := by
  induction l generalizing i with
  | nil => simp at hi
  | cons p l ih =>
    cases l with
    | nil => simp at hi
    | cons q l =>
      simp only [increasingQ, Bool.and_eq_true] at h
      cases i with
      | zero =>
        have := posQ_sound h.1
        simp only [QuadNum.val, List.getElem_cons_zero, List.getElem_cons_succ]
        push_cast at this
        linarith
      | succ i =>
        simp only [List.getElem_cons_succ]
        exact ih h.2 i (by simpa using hi)

theorem exact_nodes {nt qt : String} (c : Collocation M) (hc : Collocation.new M nt qt 0 1 = .ok c)
    {ms : List ℕ} (hlen : ms.length = M) (he : (nt, qt, ms) ∈ nodeTable) {d : ℕ} {l : List QuadNum}
    (hlen' : l.length = M) (he' : (nt, qt, d, l) ∈ exactTable) :
    VRel (QuadNum.Rel d) M (l.map some) c.nodes := by
  have hok := List.all_eq_true.mp exactNodes_ok _ he'
  have hok1 := List.all_eq_true.mp nodeTable_ok _ he
  obtain ⟨-, x, hx, hun⟩ := nodes_enclosed c hc hlen he
  obtain ⟨x', hM0, h⟩ := collocation_spec hc
  have hM158 : M ≤ 158 := by
    have : nodeTable.all (fun e => decide (e.2.2.length ≤ 158)) = true := by decide +kernel
    have : ms.length ≤ 158 := by simpa using List.all_eq_true.mp this _ he
    omega
  simp only [exactNodesOk] at hok
  simp only [nodesOk] at hok1
  refine ⟨by simp [hlen'], fun i q hq => ?_⟩
  have hi : (i:ℕ) < l.length := by rw [hlen']; exact i.2
  split_ifs at hok hok1 with hE
  · subst hE
    simp only [List.all_eq_true, List.mem_range] at hok
    have := hok i hi
    rw [nd, List.getD_eq_getElem?_getD, hq, Option.getD_some, hlen'] at this
    rw [SDCRat.equid_nodes hM158 c hc, SDCRat.vec]
    intro p hp
    subst hp
    exact (QuadNum.isRat_sound d this (y := p.val d) fun _ h => by cases h; rfl).symm
  · have hnt : nt ∈ ORTHO_TYPES := by
      have := h.hnt
      simp only [NODE_TYPES, List.mem_cons] at this
      rcases this with h | h
      · exact absurd h hE
      · simpa [ORTHO_TYPES] using h
    obtain ⟨-, hnod, hmono⟩ := ortho_enclosed hnt hlen hok1 hx h.hqt
    simp only [Bool.and_eq_true, List.all_eq_true] at hok
    obtain ⟨hinc, hroot⟩ := hok
    rw [hlen'] at hroot
    set y : Fin M → ℝ := fun i => (l[(i:ℕ)]'(by rw [hlen']; exact i.2)).val d with hy
    have hymono : StrictMono y := by
      obtain ⟨m, rfl⟩ : ∃ m, M = m + 1 := ⟨M - 1, by omega⟩
      exact Fin.strictMono_iff_lt_succ.mpr fun i =>
        increasingQ_sound hinc i (by rw [hlen']; have := i.2; omega)
    have hyx : (fun i => 2 * y i - 1) = x := by
      have hm' : StrictMono fun i => 2 * y i - 1 := fun a b hab => by
        have := hymono hab
        dsimp only
        linarith
      refine StrictMono.range_inj hm' hmono |>.mp ?_
      refine Set.eq_of_subset_of_ncard_le ?_ ?_ (Set.finite_range _)
      · rintro _ ⟨i, rfl⟩
        have hr := hroot (l[(i:ℕ)]'(by rw [hlen']; exact i.2)) (List.getElem_mem _)
        have := QuadNum.isRat_sound d hr (evalLastA_rel (QuadNum.sound d) nt (M - 1) (lastQ nt qt (M - 1))
          (x := 2 * y i - 1) (by
            rintro _ ⟨rfl⟩
            simp only [hy, QuadNum.val]
            push_cast
            ring))
        rw [← hnod, Rat.cast_zero, eval_nodal_eq_zero_iff] at this
        exact this
      · rw [← Nat.card_coe_set_eq, ← Nat.card_coe_set_eq, Nat.card_range_of_injective hmono.injective,
          Nat.card_range_of_injective hm'.injective]
    intro p hp
    subst hp
    rw [hun, ← hyx]
    rw [List.getElem?_map, List.getElem?_eq_getElem hi] at hq
    simp only [Option.map_some, Option.some.injEq] at hq
    subst hq
    simp only [hy]
    ring

end SDCArith

end QMat
