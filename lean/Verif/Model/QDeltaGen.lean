import Verif.Model.QDelta

/-!
# Model of `qmat/qdelta/__init__.py` and of `useQGen` (`qmat/utils/__init__.py`)

Generator objects, parameter resolution, the registry and `genQDeltaCoeffs`.  The cache of
`getQDelta` is in `Model/QDeltaCache.lean`; here `getQDelta` is the value it returns on an object
whose cached arrays have not been written to (theorems `C51_*` relate the two).
-/

namespace QMat

open Matrix

/-- What the rest of the package sees of a `QDeltaGenerator` object. `qdelta/__init__.py` 64-211. -/
structure QDeltaGen where
  /-- `size` property. -/
  size : ℕ
  /-- class attribute `_K_DEPENDENT` (`qdelta/__init__.py` 77, 225-226). -/
  kDependent : Bool
  /-- `computeQDelta(k)`. -/
  compute : Option ℤ → PyResult (Matrix (Fin size) (Fin size) ℝ)
  /-- whether `computeQDelta(k)` returns the array stored in `_QDelta_MIN_SR_S` rather than a new
  one (`diag.py` 288-293). -/
  shared : Option ℤ → Bool
  /-- `dTau` property. -/
  dTau : Fin size → ℝ

namespace QDeltaGen

variable (g : QDeltaGen)

/-- `qdelta/__init__.py` 123-149: value of `getQDelta(k)`. -/
def getQDelta (k : Option ℤ) : PyResult (Matrix (Fin g.size) (Fin g.size) ℝ) := g.compute k

/-- `qdelta/__init__.py` 151-169: `getSDelta(k)` is `T @ getQDelta(k)`, with the same `T` as in
`QGenerator`. -/
def getSDelta (k : Option ℤ) : PyResult (Matrix (Fin g.size) (Fin g.size) ℝ) := do
  let QDelta ← g.getQDelta k
  return qgenT g.size * QDelta

end QDeltaGen

/-- The `k` argument of `genCoeffs`: a scalar (or `None`), or a list. `qdelta/__init__.py` 176, 204-208. -/
inductive KArg
  | scalar (k : Option ℤ)
  | list (ks : List (Option ℤ))

/-- An array of coefficients: one matrix, or matrices stacked along the first axis.
`qdelta/__init__.py` 206-208. -/
inductive QDArray
  | single (M : ℕ) (A : Matrix (Fin M) (Fin M) ℝ)
  | stack (M : ℕ) (As : List (Matrix (Fin M) (Fin M) ℝ))

/-- What `genCoeffs` and `genQDeltaCoeffs` return: the array, with `dTau` if asked.
`qdelta/__init__.py` 209-211, 309-312. -/
structure QDOut where
  coeffs : QDArray
  dTau : Option (Σ M, Fin M → ℝ)

/-- `qdelta/__init__.py` 198-203: the function `gen` chosen by `form`. -/
def QDeltaGen.formGen (g : QDeltaGen) (form : String) :
    PyResult (Option ℤ → PyResult (Matrix (Fin g.size) (Fin g.size) ℝ)) :=
  if form = "Z2N" then .ok g.getQDelta
  else if form = "N2N" then .ok g.getSDelta
  else .error .valueError

/-- `qdelta/__init__.py` 176-211, `genCoeffs(k, form, dTau)`. -/
def QDeltaGen.genCoeffs (g : QDeltaGen) (k : KArg := .scalar none) (form : String := "Z2N")
    (dTau : Bool := false) : PyResult QDOut := do
  let gen ← g.formGen form
  let coeffs : QDArray ← match k with
    | .list ks => do
      let As ← ks.mapM gen
      pure (.stack g.size As)
    | .scalar k => do
      let A ← gen k
      pure (.single g.size A)
  return { coeffs := coeffs, dTau := if dTau then some ⟨g.size, g.dTau⟩ else none }

/-! ## Parameters -/

/-- A `Q`-generator object given as `qGen`: the code distinguishes `Collocation` objects from the
other `QGenerator` objects. `qdelta/__init__.py` 93-94, `diag.py` 64-76. -/
inductive QGenObj
  | coll (M : ℕ) (c : Collocation M)
  | other (M : ℕ) (g : QGenerator M)

/-- Values given to the constructors of the generators. `utils/__init__.py` 96-105. -/
inductive PyVal
  | none
  | matrix (n : ℕ) (A : Matrix (Fin n) (Fin n) ℝ)
  | array (n : ℕ) (v : Fin n → ℝ)
  | real (x : ℝ)
  | int (n : ℕ)
  | str (s : String)
  | qgen (g : QGenObj)

/-- A dictionary of parameters. `utils/__init__.py` 96-105. -/
abbrev PyDict (V : Type) := String → Option V

/-- `d.update(e)`. `utils/__init__.py` 98, 102. -/
def PyDict.update {V : Type} (d e : PyDict V) : PyDict V := fun n => (e n).or (d n)

/-- `{name: value for name, value in zip(pNames, args)}` (`utils/__init__.py` 96). -/
def dictZip {V : Type} (pNames : List String) (args : List V) : PyDict V := fun n =>
  (pNames.zip args).lookup n

/-- `kwargs.pop(name)`: the remaining dictionary. `utils/__init__.py` 94, 97. -/
def PyDict.erase {V : Type} (d : PyDict V) (name : String) : PyDict V := fun n =>
  if n = name then none else d n

/-- `utils/__init__.py` 78-107, the wrapper installed by `useQGen`: `pNames` are the names of the
positional parameters of the wrapped `__init__`, `extract` is `extractParams`, and `isNone`
recognises `None`.  The result is the dictionary given to the wrapped `__init__`. -/
def useQGen {V : Type} (isNone : V → Bool) (pNames : List String) (extract : V → PyResult (PyDict V))
    (args : List V) (kwargs : PyDict V) : PyResult (PyDict V) := do
  let kwargs ← match kwargs "coll" with
    | none => pure kwargs
    | some c =>
      if (kwargs "qGen").isSome then throw .assertionError
      else pure (fun n => if n = "qGen" then some c else kwargs.erase "coll" n)
  let params := dictZip pNames args
  let qGen := kwargs "qGen"
  let params := params.update (kwargs.erase "qGen")
  match qGen with
  | none => return params
  | some q =>
    if isNone q then return params
    else do
      let qGenParams ← extract q
      return qGenParams.update params

/-- `None`. `utils/__init__.py` 100. -/
def PyVal.isNone : PyVal → Bool
  | .none => true
  | _ => false

/-- A dictionary with one entry. `qdelta/__init__.py` 94. -/
def PyDict.single {V : Type} (name : String) (v : V) : PyDict V := fun n =>
  if n = name then some v else none

/-- `qdelta/__init__.py` 87-94, `QDeltaGenerator.extractParams`: `{"Q": qGen.Q}`. -/
def extractQ : PyVal → PyResult (PyDict PyVal)
  | .qgen (.coll M c) => .ok (PyDict.single "Q" (.matrix M c.Q))
  | .qgen (.other M g) => .ok (PyDict.single "Q" (.matrix M g.Q))
  | _ => .error .assertionError

/-- `timestepping.py` 54-61 and `diag.py` 130-137: `{"nodes": qGen.nodes}`. -/
def extractNodes : PyVal → PyResult (PyDict PyVal)
  | .qgen (.coll M c) => .ok (PyDict.single "nodes" (.array M c.nodes))
  | .qgen (.other M g) => .ok (PyDict.single "nodes" (.array M g.nodes))
  | _ => .error .assertionError

/-- `diag.py` 61-72, 172-183: number and types of the nodes of a `Collocation` object. -/
def extractColl : PyVal → PyResult (PyDict PyVal)
  | .qgen (.coll M c) => .ok (fun n =>
      if n = "nNodes" then some (.int M)
      else if n = "nodeType" then some (.str c.nodeType)
      else if n = "quadType" then some (.str c.quadType)
      else none)
  | _ => .error .assertionError

/-! ## Classes -/

/-- A registered `QDeltaGenerator` class. `qdelta/__init__.py` 214-231. -/
structure QDClass where
  /-- `__name__` -/
  name : String
  /-- class attribute `aliases` -/
  aliases : List String
  /-- names of the positional parameters of `__init__` -/
  pNames : List String
  /-- `extractParams` -/
  extract : PyVal → PyResult (PyDict PyVal)
  /-- the unwrapped `__init__`, given its parameters as a dictionary -/
  init : PyDict PyVal → PyResult QDeltaGen

/-- `cls(*args, **kwargs)` of a registered class (`qdelta/__init__.py` 229). -/
def QDClass.call (c : QDClass) (args : List PyVal) (kwargs : PyDict PyVal) : PyResult QDeltaGen := do
  let d ← useQGen PyVal.isNone c.pNames c.extract args kwargs
  c.init d

/-- The parameter `Q` of `__init__(self, Q, **kwargs)` (`qdelta/__init__.py` 83-84): a missing
argument is a `TypeError`; only square arrays are modelled, anything else is a `ValueError`. -/
def paramQ (d : PyDict PyVal) : PyResult (Σ n, Matrix (Fin n) (Fin n) ℝ) :=
  match d "Q" with
  | none => .error .typeError
  | some (.matrix n A) => .ok ⟨n, A⟩
  | some _ => .error .valueError

/-- The parameter `nodes` (`timestepping.py` 39, `diag.py` 127). -/
def paramNodes (d : PyDict PyVal) : PyResult (Σ n, Fin n → ℝ) :=
  match d "nodes" with
  | none => .error .typeError
  | some (.array n v) => .ok ⟨n, v⟩
  | some _ => .error .valueError

/-- The parameter `tLeft=0` (`timestepping.py` 39). -/
def paramTLeft (d : PyDict PyVal) : PyResult ℝ :=
  match d "tLeft" with
  | none => .ok 0
  | some (.real x) => .ok x
  | some (.int n) => .ok n
  | some _ => .error .typeError

/-- The parameters `nNodes, nodeType, quadType` (`diag.py` 56, 153). -/
def paramColl (d : PyDict PyVal) : PyResult (ℕ × String × String) :=
  match d "nNodes", d "nodeType", d "quadType" with
  | some (.int n), some (.str nt), some (.str qt) => .ok (n, nt, qt)
  | some _, some _, some _ => .error .valueError
  | _, _, _ => .error .typeError

/-- A class built on `QDeltaGenerator.__init__` whose coefficients do not depend on `k`
(`qdelta/__init__.py` 83-85, 97-99, 171-174). -/
def classQ (name : String) (aliases : List String)
    (compute : {M : ℕ} → Matrix (Fin M) (Fin M) ℝ → PyResult (Matrix (Fin M) (Fin M) ℝ)) :
    QDClass where
  name := name
  aliases := aliases
  pNames := ["Q"]
  extract := extractQ
  init d := do
    let q ← paramQ d
    return { size := q.1, kDependent := false, compute := fun _ => compute q.2,
             shared := fun _ => false, dTau := 0 }

/-- A subclass of `TimeStepping` (`timestepping.py` 26-66). -/
noncomputable def classTime (name : String) (aliases : List String)
    (compute : {M : ℕ} → TimeStepping M → PyResult (Matrix (Fin M) (Fin M) ℝ))
    (dTau : {M : ℕ} → TimeStepping M → Fin M → ℝ) : QDClass where
  name := name
  aliases := aliases
  pNames := ["nodes", "tLeft"]
  extract := extractNodes
  init d := do
    let nodes ← paramNodes d
    let tLeft ← paramTLeft d
    let g ← TimeStepping.new nodes.2 tLeft
    return { size := nodes.1, kDependent := false, compute := fun _ => compute g,
             shared := fun _ => false, dTau := dTau g }

/-- A class built on `MIN_SR_NS.__init__` (`diag.py` 127-141). -/
def classNodes (name : String) (aliases : List String) (kDependent : Bool)
    (compute : {M : ℕ} → (Fin M → ℝ) → Option ℤ → PyResult (Matrix (Fin M) (Fin M) ℝ)) :
    QDClass where
  name := name
  aliases := aliases
  pNames := ["nodes"]
  extract := extractNodes
  init d := do
    let nodes ← paramNodes d
    return { size := nodes.1, kDependent := kDependent, compute := compute nodes.2,
             shared := fun _ => false, dTau := 0 }

/-- A subclass of `FromTable` (`diag.py` 53-96). -/
noncomputable def classTable (name : String) (aliases : List String) (table : MinCoeffs.Table) : QDClass where
  name := name
  aliases := aliases
  pNames := ["nNodes", "nodeType", "quadType"]
  extract := extractColl
  init d := do
    let (n, nt, qt) ← paramColl d
    return { size := n, kDependent := false, compute := fun _ => computeFromTable table n nt qt,
             shared := fun _ => false, dTau := 0 }

/-- `MIN_SR_S` (`diag.py` 147-275): the constructor builds the `Collocation` object. -/
noncomputable def classMINSRS (ext : ExternalNum) : QDClass where
  name := "MIN_SR_S"
  aliases := ["MIN-SR-S"]
  pNames := ["nNodes", "nodeType", "quadType"]
  extract := extractColl
  init d := do
    let (n, nt, qt) ← paramColl d
    let _ ← Collocation.new n nt qt
    return { size := n, kDependent := false, compute := fun _ => computeMINSRS ext n nt qt,
             shared := fun _ => false, dTau := 0 }

/-- `MIN_SR_FLEX` (`diag.py` 278-293). -/
noncomputable def classMINSRFLEX (ext : ExternalNum) : QDClass where
  name := "MIN_SR_FLEX"
  aliases := ["MIN-SR-FLEX"]
  pNames := ["nNodes", "nodeType", "quadType"]
  extract := extractColl
  init d := do
    let (n, nt, qt) ← paramColl d
    let c ← Collocation.new n nt qt
    return { size := n, kDependent := true, compute := computeMINSRFLEX ext n nt qt c.nodes,
             shared := fun k => k.getD 1 > n, dTau := 0 }

/-- The registered classes, in the order in which the submodules are imported
(`algebraic.py`, `diag.py`, `timestepping.py`; `qdelta/__init__.py` 318, `utils/__init__.py`
58-63). -/
noncomputable def qDeltaClasses (ext : ExternalNum) : List QDClass := [
  classQ "PIC" ["Picard"] fun Q => .ok (computePIC Q),
  classQ "Exact" ["EXACT"] fun Q => .ok (computeExact Q),
  classQ "LU" [] fun Q => .ok (computeLU ext Q),
  classQ "LU2" [] fun Q => .ok (computeLU2 ext Q),
  classQ "QPar" ["Qpar", "Qdiag"] fun Q => .ok (computeQPar Q),
  classQ "GS" ["GaussSeidel"] fun Q => .ok (computeGS Q),
  classQ "LDU" [] fun Q => computeLDU Q,
  classQ "MIN" ["MIN-Speck"] fun Q => computeMIN ext Q,
  classTable "MIN3" ["Magic_Numbers"] MinCoeffs.MIN3,
  classTable "MIN_VDHS" ["VDHS"] MinCoeffs.MIN_VDHS,
  classNodes "MIN_SR_NS" ["MIN-SR-NS", "MIN_GT"] false fun v _ => .ok (computeMINSRNS v),
  classMINSRS ext,
  classMINSRFLEX ext,
  classNodes "Jumper" ["JUMPER", "FB"] true fun v k => computeJumper v k,
  classNodes "FlexJumper" ["FLEX-JUMPER", "FB2"] true fun v k => computeFlexJumper v k,
  classNodes "DNODES" ["DNODES-1"] false fun v _ => .ok (computeDNODES 1 v),
  classNodes "DNODES2" ["DNODES-2"] false fun v _ => .ok (computeDNODES 2 v),
  classNodes "DNODES3" ["DNODES-3"] false fun v _ => .ok (computeDNODES 3 v),
  classNodes "DNODES4" ["DNODES-4"] false fun v _ => .ok (computeDNODES 4 v),
  classNodes "DNODES5" ["DNODES-5"] false fun v _ => .ok (computeDNODES 5 v),
  classTime "BE" ["IE"] (fun g => .ok g.computeBE) fun _ => 0,
  classTime "FE" ["EE"] (fun g => .ok g.computeFE) fun g => g.dTauFE,
  classTime "TRAP" ["CN"] (fun g => .ok g.computeTRAP) fun g => g.dTauTRAP,
  classTime "BEPAR" ["IEpar"] (fun g => .ok g.computeBEPAR) fun _ => 0,
  classTime "TRAPAR" [] (fun g => .ok g.computeTRAPAR) fun g => g.dTauTRAPAR,
  classTime "SOE" ["LeapFrog", "LF"] (fun g => g.computeSOE) fun g => g.dTauFE]

/-- `QDELTA_GENERATORS[name]` after all registrations: every class is stored under its name and its
aliases (`utils/__init__.py` 47-55); the keys are distinct (`C65_qdelta_keys_nodup`). -/
noncomputable def QDELTA_GENERATORS (ext : ExternalNum) (name : String) : Option QDClass :=
  (qDeltaClasses ext).find? fun c => name = c.name ∨ name ∈ c.aliases

/-! ## `genQDeltaCoeffs` -/

/-- The `qDeltaType` argument: a string, a list of strings, or something else.
`qdelta/__init__.py` 262-281. -/
inductive QDType
  | str (s : String)
  | list (l : List String)
  | other

/-- The `nSweeps` argument: `None`, an integer, or something else. `qdelta/__init__.py` 263-279. -/
inductive NSweeps
  | none
  | int (n : ℤ)
  | other

/-- `np.array([m1, m2, ...])` of matrices: `ValueError` when the sizes differ.
`qdelta/__init__.py` 206, 306. -/
def npStack : List (Σ M, Matrix (Fin M) (Fin M) ℝ) → PyResult QDArray
  | [] => .ok (.stack 0 [])
  | ⟨M, A⟩ :: rest => do
    let As ← rest.mapM fun B => if h : B.1 = M then
        (.ok (B.2.submatrix (Fin.cast h.symm) (Fin.cast h.symm)) : PyResult _)
      else .error .valueError
    return .stack M (A :: As)

/-- Value of a single matrix as a sized matrix; a stack cannot occur for scalar `k`.
`qdelta/__init__.py` 307. -/
def QDArray.sized : QDArray → PyResult (Σ M, Matrix (Fin M) (Fin M) ℝ)
  | .single M A => .ok ⟨M, A⟩
  | .stack _ _ => .error .valueError

/-- `qdelta/__init__.py` 285-288, 294-297: look up of a name. -/
noncomputable def lookupQDelta (ext : ExternalNum) (name : String) : PyResult QDClass :=
  match QDELTA_GENERATORS ext name with
  | some c => .ok c
  | none => .error .valueError

/-- `qdelta/__init__.py` 293-312: one matrix per sweep, for a list of names. -/
noncomputable def genQDeltaList (ext : ExternalNum) (types : List String) (nSweeps : ℕ)
    (form : String) (dTau : Bool) (params : PyDict PyVal) : PyResult QDOut := do
  let Generators ← types.mapM (lookupQDelta ext)
  match Generators with
  | [Gen] =>
    let gen ← Gen.call [] params
    gen.genCoeffs (.list ((List.range nSweeps).map fun (k : ℕ) => some ((k : ℤ) + 1))) form dTau
  | Generators =>
    let gens ← Generators.mapM fun Gen => Gen.call [] params
    let mats ← (gens.mapIdx fun k gen => (k, gen)).mapM fun (kg : ℕ × QDeltaGen) => do
      let out ← kg.2.genCoeffs (.scalar (some (kg.1 + 1 : ℤ))) form
      out.coeffs.sized
    let coeffs ← npStack mats
    match gens with
    | [] => throw .indexError
    | g :: _ => return { coeffs := coeffs, dTau := if dTau then some ⟨g.size, g.dTau⟩ else none }

/-- `qdelta/__init__.py` 234-312, `genQDeltaCoeffs`.  The first component is the caller's
`qDeltaType` object after the call: line 277 (`qDeltaType += ...`) extends a list in place. -/
noncomputable def genQDeltaCoeffs (ext : ExternalNum) (qDeltaType : QDType)
    (nSweeps : NSweeps := .none) (form : String := "Z2N") (dTau : Bool := false)
    (params : PyDict PyVal) : QDType × PyResult QDOut :=
  match qDeltaType, nSweeps with
  | .str s, .none => (.str s, do
      let Gen ← lookupQDelta ext s
      let gen ← Gen.call [] params
      gen.genCoeffs (.scalar none) form dTau)
  | .str s, .int n =>
      if n > 0 then (.str s, genQDeltaList ext [s] n.toNat form dTau params)
      else (.str s, .error .valueError)
  | .str s, .other => (.str s, .error .valueError)
  | .list l, n =>
      if l.length = 0 then (.list l, .error .assertionError)
      else match n with
        | .none => (.list l, genQDeltaList ext l l.length form dTau params)
        | .int n =>
          if n > 0 then
            if n < l.length then (.list l, .error .assertionError)
            else
              let l' := l ++ List.replicate (n.toNat - l.length) (l.getLast?.getD "")
              (.list l', genQDeltaList ext l' n.toNat form dTau params)
          else (.list l, .error .valueError)
        | .other => (.list l, .error .valueError)
  | .other, _ => (.other, .error .valueError)

end QMat
