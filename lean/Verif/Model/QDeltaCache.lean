import Verif.Model.QDeltaGen

/-!
# Model of the cache of `QDeltaGenerator.getQDelta` (`qmat/qdelta/__init__.py` 123-211)

Arrays have an identity here: the arrays created through one generator object are kept in a heap, an
array is its address, and the caller may overwrite the content of every array it was given.
-/

namespace QMat

open Matrix

/-- The attribute `_QDelta` of an object: absent, one array, or a dictionary indexed by `k`
(`None` and `1` are different keys). `qdelta/__init__.py` 140-146. -/
inductive QDCache
  | unset
  | single (a : ℕ)
  | dict (entries : List (Option ℤ × ℕ))

/-- State of a generator object: the arrays created so far (address = position), the attribute
`_QDelta`, and the attribute `_QDelta_MIN_SR_S` (`diag.py` 289-293). -/
structure QDState (n : ℕ) where
  heap : List (Matrix (Fin n) (Fin n) ℝ)
  cache : QDCache
  memo : Option ℕ

namespace QDState

variable {n : ℕ}

/-- State after the constructor. `qdelta/__init__.py` 83-85. -/
def init (n : ℕ) : QDState n := ⟨[], .unset, none⟩

/-- Content of the array at an address. Arrays of `qdelta/__init__.py` 123-149. -/
def read (s : QDState n) (a : ℕ) : Matrix (Fin n) (Fin n) ℝ := s.heap.getD a 0

/-- Creates a new array. Arrays of `qdelta/__init__.py` 123-149. -/
def alloc (s : QDState n) (A : Matrix (Fin n) (Fin n) ℝ) : ℕ × QDState n :=
  (s.heap.length, { s with heap := s.heap ++ [A] })

/-- Overwrites the content of an array. Arrays of `qdelta/__init__.py` 123-149, changed by a caller. -/
def write (s : QDState n) (a : ℕ) (A : Matrix (Fin n) (Fin n) ℝ) : QDState n :=
  { s with heap := s.heap.set a A }

end QDState

/-- Outcome of `self._QDelta[k] if self._K_DEPENDENT else self._QDelta`. `qdelta/__init__.py` 140-148. -/
inductive CacheGet
  | hit (a : ℕ)
  | attributeError
  | keyError
  | other

/-- `qdelta/__init__.py` 140-141. -/
def QDCache.get (kDependent : Bool) (k : Option ℤ) : QDCache → CacheGet
  | .unset => .attributeError
  | .single a => if kDependent then .other else .hit a
  | .dict es => if kDependent then
      match es.lookup k with
      | some a => .hit a
      | none => .keyError
    else .other

/-- `self._QDelta[k] = QDelta` on a dictionary. `qdelta/__init__.py` 146. -/
def QDCache.insert (k : Option ℤ) (a : ℕ) : QDCache → QDCache
  | .dict es => .dict ((k, a) :: es)
  | c => c

namespace QDeltaGen

variable (g : QDeltaGen)

/-- `computeQDelta(k)` on an object: a new array, except for the array that `MIN_SR_FLEX` keeps in
`_QDelta_MIN_SR_S` (`diag.py` 284-293). -/
def computeH (k : Option ℤ) (s : QDState g.size) : PyResult ℕ × QDState g.size :=
  if g.shared k then
    match s.memo with
    | some a => (.ok a, s)
    | none =>
      match g.compute k with
      | .error e => (.error e, s)
      | .ok A => (.ok (s.alloc A).1, { (s.alloc A).2 with memo := some (s.alloc A).1 })
  else
    match g.compute k with
    | .error e => (.error e, s)
    | .ok A => (.ok (s.alloc A).1, (s.alloc A).2)

/-- `qdelta/__init__.py` 149: `QDelta.copy() if copy else QDelta`. -/
def retH {n : ℕ} (copy : Bool) (a : ℕ) (s : QDState n) : PyResult ℕ × QDState n :=
  if copy then (.ok (s.alloc (s.read a)).1, (s.alloc (s.read a)).2) else (.ok a, s)

/-- `qdelta/__init__.py` 123-149, `getQDelta(k, copy)`: the address of the returned array. -/
def getQDeltaH (k : Option ℤ) (copy : Bool) (s : QDState g.size) : PyResult ℕ × QDState g.size :=
  match s.cache.get g.kDependent k with
  | .hit a => retH copy a s
  | .attributeError =>
    match g.computeH k s with
    | (.error e, s) => (.error e, s)
    | (.ok a, s) =>
      retH copy a { s with cache := if g.kDependent then .dict [(k, a)] else .single a }
  | .keyError =>
    match g.computeH k s with
    | (.error e, s) => (.error e, s)
    | (.ok a, s) => retH copy a { s with cache := s.cache.insert k a }
  | .other =>
    match g.computeH k s with
    | (.error e, s) => (.error e, s)
    | (.ok _, s) => (.error .exception, s)

/-- `qdelta/__init__.py` 151-169, `getSDelta(k)`. -/
def getSDeltaH (k : Option ℤ) (s : QDState g.size) : PyResult ℕ × QDState g.size :=
  match g.getQDeltaH k true s with
  | (.error e, s) => (.error e, s)
  | (.ok a, s) => (.ok (s.alloc (qgenT g.size * s.read a)).1, (s.alloc (qgenT g.size * s.read a)).2)

/-- `[gen(_k) for _k in k]`: what was cached before an exception stays cached. `qdelta/__init__.py` 206. -/
def mapH {n : ℕ} (gen : Option ℤ → QDState n → PyResult ℕ × QDState n) :
    List (Option ℤ) → QDState n → PyResult (List ℕ) × QDState n
  | [], s => (.ok [], s)
  | k :: ks, s =>
    match gen k s with
    | (.error e, s) => (.error e, s)
    | (.ok a, s) =>
      match mapH gen ks s with
      | (.error e, s) => (.error e, s)
      | (.ok as, s) => (.ok (a :: as), s)

end QDeltaGen

/-- A returned array: a matrix, by its address, or a new array of stacked matrices.
`qdelta/__init__.py` 206-208. -/
inductive QDRet (n : ℕ)
  | array (a : ℕ)
  | stack (As : List (Matrix (Fin n) (Fin n) ℝ))

namespace QDeltaGen

variable (g : QDeltaGen)

/-- `qdelta/__init__.py` 199-204: the function `gen` used by `genCoeffs`, which does not copy. -/
def formGenH (form : String) : PyResult (Option ℤ → QDState g.size → PyResult ℕ × QDState g.size) :=
  if form = "Z2N" then .ok fun k s => g.getQDeltaH k false s
  else if form = "N2N" then .ok g.getSDeltaH
  else .error .valueError

/-- `qdelta/__init__.py` 176-211, `genCoeffs(k, form)`; the vector `dTau` is computed anew at each
call and does not take part in the cache. -/
def genCoeffsH (k : KArg) (form : String) (s : QDState g.size) :
    PyResult (QDRet g.size) × QDState g.size :=
  match g.formGenH form with
  | .error e => (.error e, s)
  | .ok gen =>
    match k with
    | .list ks =>
      match mapH gen ks s with
      | (.error e, s) => (.error e, s)
      | (.ok as, s) => (.ok (.stack (as.map s.read)), s)
    | .scalar k =>
      match gen k s with
      | (.error e, s) => (.error e, s)
      | (.ok a, s) => (.ok (.array a), s)

end QDeltaGen

/-! ## Histories -/

/-- What a caller can do with a generator object and the arrays it returned.
Callers of `qdelta/__init__.py` 123-211. -/
inductive QDAction (n : ℕ)
  | getQDelta (k : Option ℤ) (copy : Bool)
  | getSDelta (k : Option ℤ)
  | genCoeffs (k : KArg) (form : String)
  | write (a : ℕ) (A : Matrix (Fin n) (Fin n) ℝ)

/-- An object and the addresses of the arrays that were handed out.
Callers of `qdelta/__init__.py` 123-211. -/
structure QDSession (n : ℕ) where
  state : QDState n
  known : List ℕ

/-- Adds a returned address to the arrays the caller has. Callers of `qdelta/__init__.py` 123-211. -/
def QDSession.after {n : ℕ} (known : List ℕ) : PyResult ℕ × QDState n → QDSession n
  | (.ok a, s) => ⟨s, a :: known⟩
  | (.error _, s) => ⟨s, known⟩

/-- One action of the caller; only arrays that were handed out can be written to.
Callers of `qdelta/__init__.py` 123-211. -/
def QDeltaGen.act (g : QDeltaGen) (S : QDSession g.size) : QDAction g.size → QDSession g.size
  | .getQDelta k copy => .after S.known (g.getQDeltaH k copy S.state)
  | .getSDelta k => .after S.known (g.getSDeltaH k S.state)
  | .genCoeffs k form =>
    match g.genCoeffsH k form S.state with
    | (.ok (.array a), s) => ⟨s, a :: S.known⟩
    | (_, s) => ⟨s, S.known⟩
  | .write a A => if a ∈ S.known then { S with state := S.state.write a A } else S

/-- The session after a list of actions on a new object. Callers of `qdelta/__init__.py` 123-211. -/
def QDeltaGen.history (g : QDeltaGen) (h : List (QDAction g.size)) : QDSession g.size :=
  h.foldl g.act ⟨QDState.init g.size, []⟩

end QMat
