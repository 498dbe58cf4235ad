import Verif.Model.Lagrange

/-!
# Model of `getSparseInterpolationMatrix` (`qmat/lagrange.py` 540-598)

A sparse matrix is its dense content.
-/

namespace QMat

/-- `np.argsort`: some permutation that sorts; how ties are broken is left open (numpy's default sort is
not stable). `lagrange.py` 579, 584. -/
structure ArgSort where
  perm : {n : ℕ} → (Fin n → ℝ) → Equiv.Perm (Fin n)
  sorts : ∀ {n : ℕ} (v : Fin n → ℝ), Monotone fun i => v (perm v i)

/-- Number of entries of `a[:order]` for an array of size `n`. `lagrange.py` 579, 584. -/
def sliceLen (n : ℕ) (order : ℤ) : ℕ := if 0 ≤ order then min order.toNat n else (n + order).toNat

/-- `np.sort(np.argsort(dist)[:order])` as a set (`lagrange.py` 579, 584). -/
def closestSet (sort : ArgSort) {N : ℕ} (dist : Fin N → ℝ) (order : ℤ) : Finset (Fin N) :=
  Finset.univ.filter fun i => (((sort.perm dist).symm i : Fin N) : ℕ) < sliceLen N order

/-- `closestPoints` and `closestPointsIdx` of an output point. `lagrange.py` 579-585. -/
structure Stencil (n : ℕ) where
  size : ℕ
  points : Fin size → ℝ
  idx : Fin size → Fin n

/-- `lagrange.py` 584-585: not periodic. -/
noncomputable def stencilPlain (sort : ArgSort) {n : ℕ} (inPoints : Fin n → ℝ) (order : ℤ) (out : ℝ) :
    Stencil n :=
  let S := closestSet sort (fun j => |inPoints j - out|) order
  { size := S.card
    points := fun k => inPoints (S.orderEmbOfFin rfl k) - out
    idx := fun k => S.orderEmbOfFin rfl k }

/-- `x % period` for a positive period. `lagrange.py` 574-576. -/
noncomputable def pyMod (x period : ℝ) : ℝ := x - period * ⌊x / period⌋

/-- `lagrange.py` 574-577: the entries of `np.append(np.append(pathR, pathL), pathC)`. -/
noncomputable def periodicPath {n : ℕ} (inPoints : Fin n → ℝ) (period out : ℝ) (j : Fin (3 * n)) : ℝ :=
  let x := inPoints ⟨j % n, Nat.mod_lt _ (by have := j.2; omega)⟩
  if (j : ℕ) < n then x + period - pyMod out period
  else if (j : ℕ) < 2 * n then x - period - pyMod out period
  else x - pyMod out period

/-- `lagrange.py` 574-582: periodic. -/
noncomputable def stencilPeriodic (sort : ArgSort) {n : ℕ} (inPoints : Fin n → ℝ) (order : ℤ)
    (period out : ℝ) : Stencil n :=
  let path := periodicPath inPoints period out
  let S := closestSet sort (fun j => |path j|) order
  let sorted : Fin S.card → Fin (3 * n) := fun k => S.orderEmbOfFin rfl k
  let values : Fin S.card → ℝ := fun k => path (sorted k)
  { size := npUniqueSize values
    points := npUnique values
    idx := fun k => ⟨sorted (npUniqueFirst values k) % n,
      Nat.mod_lt _ (by have := (sorted (npUniqueFirst values k)).2; omega)⟩ }

/-- `lastClosestPoints`, `lastInterpolationLine`. `lagrange.py` 587-592. -/
structure LastLine where
  size : ℕ
  points : Fin size → ℝ
  line : Fin size → ℝ

open Classical in
/-- `lagrange.py` 587-594: the line is taken again when the stencil is close to the last one that was
computed; the result is the pair stored afterwards. -/
noncomputable def sparseLine {n : ℕ} (last : Option LastLine) (s : Stencil n) : PyResult LastLine :=
  match (last.bind fun l =>
      if ∃ h : s.size = l.size, npAllClose s.points (fun k => l.points (Fin.cast h k)) then some l
      else none : Option LastLine) with
  | some l => .ok l
  | none => do
    let interpolator ← LagrangeApproximation.new s.points
    return { size := s.size, points := s.points, line := interpolator.getInterpolationMatrix (fun _ : Fin 1 => 0) 0 }

/-- `lagrange.py` 596: `A[i, closestPointsIdx] = interpolationLine`, entry by entry. -/
noncomputable def scatter {n q : ℕ} (idx : Fin q → Fin n) (line : Fin q → ℝ) : Fin n → ℝ :=
  (List.finRange q).foldl (fun r k => Function.update r (idx k) (line k)) 0

open Classical in
/-- `lagrange.py` 572-596: the loop over the output points.  The sizes agree whenever a line is used, so the
branch for other sizes is never taken. -/
noncomputable def sparseLoop {n : ℕ} : List (Stencil n) → Option LastLine → PyResult (List (Fin n → ℝ))
  | [], _ => .ok []
  | s :: rest, last => do
    let l ← sparseLine last s
    let rows ← sparseLoop rest (some l)
    if h : s.size = l.size then return scatter s.idx (fun k => l.line (Fin.cast h k)) :: rows
    else throw .valueError

/-- `lagrange.py` 540-598, `getSparseInterpolationMatrix(inPoints, outPoints, order, gridPeriod)`. -/
noncomputable def getSparseInterpolationMatrix (sort : ArgSort) {n m : ℕ} (inPoints : Fin n → ℝ)
    (outPoints : Fin m → ℝ) (order : ℤ) (gridPeriod : ℝ := -1) : PyResult (Matrix (Fin m) (Fin n) ℝ) := do
  if (n : ℤ) < order then throw .assertionError
  let stencils : List (Stencil n) := List.ofFn fun i =>
    if gridPeriod > 0 then stencilPeriodic sort inPoints order gridPeriod (outPoints i)
    else stencilPlain sort inPoints order (outPoints i)
  let rows ← sparseLoop stencils none
  return Matrix.of fun i j => rows.getD i 0 j

end QMat
