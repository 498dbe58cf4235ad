import Verif.Lemmas.MinCert
import Verif.Lemmas.SDCTableSound
import Verif.Props.AStable
import Verif.Props.Nilpotent

/-!
# Nodes with many digits, and the check of an entry of the coefficient tables
-/

namespace QMat

open Matrix Polynomial Spec NodesGenerator

namespace MinCert

variable {M : ℕ}

/-- From units of `1 / s` on `[0, 1]` to `[-1, 1]`. -/
def refPoint (s k : ℤ) : ℚ := 2 * (k : ℚ) / s - 1

/-- Every interval is left of the next one. -/
def apart (w : ℤ) : List ℤ → Bool
  | a :: b :: l => decide (a + 2 * w < b) && apart w (b :: l)
  | _ => true

/-- Legendre nodes of a quadrature type: the monic polynomial changes sign at every node. -/
def legendreOk (qt : String) (s w : ℤ) (ks : List ℤ) : Bool :=
  let m := ks.length - 1
  let ab := SDCArith.lastQ "LEGENDRE" qt m
  (decide (qt ≠ "LOBATTO") || decide (SDCArith.evalLast "LEGENDRE" m ab 1 = 0 ∧
    SDCArith.evalLast "LEGENDRE" m ab (-1) = 0)) &&
  (ks.all fun k => decide (SDCArith.evalLast "LEGENDRE" m ab (refPoint s (k - w)) *
    SDCArith.evalLast "LEGENDRE" m ab (refPoint s (k + w)) ≤ 0)) && apart w ks

def equidOk (qt : String) (s w : ℤ) (ks : List ℤ) : Bool :=
  (List.range ks.length).all fun i => decide (|(SDCRat.equid qt ks.length).getD i 0 * s - ks.getD i 0| ≤ w)

def nodesOk (nt qt : String) (s w : ℤ) (ks : List ℤ) : Bool :=
  if nt = "EQUID" then equidOk qt s w ks else decide (nt = "LEGENDRE") && legendreOk qt s w ks

theorem apart_lt {w : ℤ} (hw : 0 ≤ w) {ks : List ℤ} (h : apart w ks = true) {i j : ℕ} (hij : i < j)
    (hj : j < ks.length) : ks.getD i 0 + 2 * w < ks.getD j 0 := by
  induction ks generalizing i j with
  | nil => simp at hj
  | cons a l ih =>
    cases l with
    | nil => simp at hj; omega
    | cons b l =>
      simp only [apart, Bool.and_eq_true, decide_eq_true_eq] at h
      obtain ⟨j, rfl⟩ : ∃ k, j = k + 1 := ⟨j - 1, by omega⟩
      simp only [List.getD_cons_succ]
      have hj' : j < (b :: l).length := by simpa using hj
      cases i with
      | succ i =>
        simp only [List.getD_cons_succ]
        exact ih h.2 (by omega) hj'
      | zero =>
        simp only [List.getD_cons_zero]
        cases j with
        | zero => simpa using h.1
        | succ j =>
          have := ih h.2 (i := 0) (j := j + 1) (by omega) hj'
          simp only [List.getD_cons_zero] at this
          linarith [h.1]

theorem legendre_enclosed {qt : String} {s w : ℤ} (hs : 0 < s) (hw : 0 < w) {ks : List ℤ} (hlen : ks.length = M)
    (hok : legendreOk qt s w ks = true) {x : Fin M → ℝ} (hx : getNodes ⟨"LEGENDRE", qt⟩ M = .ok x)
    (hqt : qt ∈ QUAD_TYPES) (i : Fin M) : |(x i + 1) / 2 * s - (ks.getD i 0 : ℤ)| ≤ w := by
  have hnt : "LEGENDRE" ∈ ORTHO_TYPES := by decide
  have hv := validSize_of_getNodes hx
  obtain ⟨m, rfl⟩ : ∃ m, M = m + 1 := ⟨M - 1, by have := hv.1; omega⟩
  obtain ⟨x', a, b, hx', hsm, hnod, hlast, hspec, -⟩ := getNodes_ortho hnt hqt hv
  rw [hx] at hx'
  cases hx'
  simp only [legendreOk, hlen, Nat.add_sub_cancel, Bool.and_eq_true, Bool.or_eq_true, decide_eq_true_eq,
    List.all_eq_true] at hok
  obtain ⟨⟨h1, h2⟩, h3⟩ := hok
  have hP := SDCArith.lastPoly_eq hnt hlast hspec fun h => h1.resolve_left (by simp [h])
  rw [hP] at hnod
  have hS : (0:ℝ) < s := by exact_mod_cast hs
  have hcast : ∀ k : ℤ, ((refPoint s k : ℚ) : ℝ) = 2 * k / s - 1 := fun k => by
    unfold refPoint
    push_cast
    rfl
  have hmono : ∀ {a b : ℤ}, a < b → ((refPoint s a : ℚ) : ℝ) < ((refPoint s b : ℚ) : ℝ) := by
    intro a b hab
    rw [hcast, hcast]
    have : (a:ℝ) < b := by exact_mod_cast hab
    have := div_lt_div_of_pos_right (mul_lt_mul_of_pos_left this two_pos) hS
    linarith
  have key := SDCArith.roots_enclosed hsm hnod
    (l := fun i => ((refPoint s (ks.getD i 0 - w) : ℚ) : ℝ))
    (r := fun i => ((refPoint s (ks.getD i 0 + w) : ℚ) : ℝ))
    (fun i => (hmono (by omega)).le)
    (fun i j hij => by
      have := apart_lt hw.le h3 (Fin.lt_def.mp hij) (by rw [hlen]; exact j.2)
      refine hmono ?_
      omega)
    (fun i => by
      have hi : (i:ℕ) < ks.length := by rw [hlen]; exact i.2
      have hm : ks.getD i 0 ∈ ks := by
        rw [List.getD_eq_getElem?_getD, List.getElem?_eq_getElem hi]
        exact List.getElem_mem hi
      have := h2 _ hm
      rw [← SDCArith.evalLast_cast, ← SDCArith.evalLast_cast]
      exact_mod_cast this) i
  rw [hcast, hcast] at key
  push_cast at key
  rw [abs_le]
  have e1 : 2 * (((ks.getD i 0 : ℤ) : ℝ) - w) ≤ (x i + 1) * s := by
    have := key.1
    rw [sub_le_iff_le_add, div_le_iff₀ hS] at this
    exact this
  have e2 : (x i + 1) * s ≤ 2 * (((ks.getD i 0 : ℤ) : ℝ) + w) := by
    have := key.2
    rw [le_sub_iff_add_le, le_div_iff₀ hS] at this
    exact this
  constructor <;> linarith

theorem nodes_close {nt qt : String} {s w : ℤ} (hs : 0 < s) (hw : 0 < w) {ks : List ℤ} (hlen : ks.length = M)
    (hM : M ≤ 158) (hok : nodesOk nt qt s w ks = true) (c : Collocation M)
    (hc : Collocation.new M nt qt 0 1 = .ok c) (i : Fin M) : |c.nodes i * s - (ks.getD i 0 : ℤ)| ≤ w := by
  unfold nodesOk at hok
  split_ifs at hok with hE
  · subst hE
    simp only [equidOk, List.all_eq_true, List.mem_range, decide_eq_true_eq] at hok
    have := hok i (by rw [hlen]; exact i.2)
    rw [hlen] at this
    rw [SDCRat.equid_nodes hM c hc, SDCRat.vec]
    exact_mod_cast this
  · simp only [Bool.and_eq_true, decide_eq_true_eq] at hok
    obtain ⟨rfl, hok⟩ := hok
    obtain ⟨x, hM0, h⟩ := collocation_spec hc
    obtain ⟨x, hx, hn⟩ := unmoved_small hM c hc
    rw [hn]
    exact legendre_enclosed hs hw hlen hok hx h.hqt i

/-- An entry of a table of coefficients: node type, quadrature type, bound of the spectral radius in the stiff limit,
approximate nodes, bound of the inverses of the coefficients, residual, initial error and number of squarings. -/
structure Entry where
  nodeType : String
  quadType : String
  bound : ℚ
  nodes : List ℤ
  inv : ℚ
  res : ℚ
  err : ℤ
  squarings : ℕ

def Entry.size (e : Entry) : ℕ := e.nodes.length

def scale : ℤ := 2 ^ 400

def entryOk (t : MinCoeffs.Table) (e : Entry) : Bool :=
  let M := e.nodes.length
  decide (0 < e.bound ∧ 0 ≤ e.inv ∧ 0 ≤ e.err ∧ M ≤ 158) && nodesOk e.nodeType e.quadType scale 2 e.nodes &&
  match tableLookup t e.nodeType e.quadType M with
  | .error _ => false
  | .ok ds =>
    let Y := approxInv M scale e.nodes
    let X := approxLimit M scale e.nodes ds e.bound Y
    certOk M scale 2 e.nodes ds e.bound e.inv X Y e.err e.res e.squarings

attribute [local instance] Matrix.linftyOpNormedAddCommGroup Matrix.linftyOpNormedRing Matrix.linftyOpNormedSpace
  Matrix.linftyOpNormedAlgebra

/-- The approximation of the stiff limit divided by the bound. -/
def Entry.limit (e : Entry) (ds : List ℚ) : List (List ℤ) :=
  approxLimit e.size scale e.nodes ds e.bound (approxInv e.size scale e.nodes)

theorem entryOk_sound {t : MinCoeffs.Table} {e : Entry} (h : entryOk t e = true) {cs : List ℚ}
    (hcs : tableLookup t e.nodeType e.quadType e.size = .ok cs) (c : Collocation e.size)
    (hc : Collocation.new e.size e.nodeType e.quadType 0 1 = .ok c) :
    ‖(e.bound:ℝ)⁻¹ • stiffLimit (fun i => ((cs.getD i 0 : ℚ) : ℝ)) c.Q - (scale:ℝ)⁻¹ • mat e.size (e.limit cs)‖ ≤
      e.err / scale ∧
    ‖stiffLimit (fun i => ((cs.getD i 0 : ℚ) : ℝ)) c.Q ^ 2 ^ e.squarings‖ ≤ (e.bound : ℝ) ^ 2 ^ e.squarings := by
  simp only [entryOk, Bool.and_eq_true, decide_eq_true_eq] at h
  obtain ⟨⟨⟨hb, hi, he, hM⟩, hn⟩, h⟩ := h
  change (match tableLookup t e.nodeType e.quadType e.size with
    | .error _ => false
    | .ok ds => certOk e.size scale 2 e.nodes ds e.bound e.inv _ _ e.err e.res e.squarings) = true at h
  rw [hcs] at h
  obtain ⟨hinj, hQ⟩ := coll_monomials one_pos hc
  obtain ⟨x, hM0, hspec⟩ := collocation_spec hc
  have hmem := (hspec.snapped one_pos).2
  have hs : (0:ℤ) < scale := by norm_num [scale]
  exact certOk_sound hs (by norm_num) hb hi he h hinj (fun i => (hmem i).1) (fun i => (hmem i).2)
    (nodes_close hs (by norm_num) rfl hM hn c hc) hQ

end MinCert

end QMat
