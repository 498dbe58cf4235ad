import Verif.Model.Tables
import Verif.Model.QDeltaGen

/-!
# Model of `genQCoeffs` and `getInstance` (`qmat/qcoeff/__init__.py`)

First the values, then, for histories of calls, the arrays with their identity: the Butcher arrays are
attributes of the classes and `genCoeffs` returns them without a copy.
-/

namespace QMat

open Matrix

/-- A class stored in `Q_GENERATORS`: `Collocation` (`collocation.py` 20-21) or a Runge-Kutta class. -/
inductive QClass
  | coll
  | rk (T : RKTable)

/-- `Q_GENERATORS[name]` after all registrations; the keys are distinct (`C65_q_keys_nodup`).
`qcoeff/__init__.py` 212-236 and 264-268. -/
def Q_GENERATORS (name : String) : Option QClass :=
  if name = "Collocation" ∨ name = "coll" then some .coll
  else (Tables.rkSchemes.find? fun T => name = T.name ∨ name ∈ T.aliases).map .rk

/-- The parameter `tLeft` or `tRight` of `Collocation` (`collocation.py` 47), a number with a default. -/
def paramReal (default : ℝ) : Option PyVal → PyResult ℝ
  | none => .ok default
  | some (.real x) => .ok x
  | some (.int n) => .ok n
  | some _ => .error .typeError

open Classical in
/-- `Collocation(**params)` (`collocation.py` 47): an unknown or missing parameter is a `TypeError`; types that
are not strings are not among the known ones; the number of nodes is a natural number here. -/
noncomputable def callColl (params : PyDict PyVal) : PyResult (Σ M, QGenerator M) :=
  if ∃ n, n ∉ ["nNodes", "nodeType", "quadType", "tLeft", "tRight"] ∧ params n ≠ none then .error .typeError
  else match params "nNodes", params "nodeType", params "quadType" with
  | some (.int n), some (.str nt), some (.str qt) => do
    let a ← paramReal 0 (params "tLeft")
    let b ← paramReal 1 (params "tRight")
    let c ← Collocation.new n nt qt a b
    return ⟨n, c.toQGenerator⟩
  | some (.int _), some _, some _ => .error .valueError
  | _, _, _ => .error .typeError

open Classical in
/-- The `padding` parameter of `RK` (`butcher.py` 46-48) after `if padding:` and the `assert`: `none` if there is
no padding.  Arrays and generators given as padding are not modelled (`AssertionError`). -/
noncomputable def paramPadding : Option PyVal → PyResult (Option String)
  | none | some .none | some (.str "") | some (.int 0) => .ok none
  | some (.real x) => if x = 0 then .ok none else .error .assertionError
  | some (.str p) => if p ∈ ["LEFT", "RIGHT", "BOTH"] then .ok (some p) else .error .assertionError
  | some _ => .error .assertionError

open Classical in
/-- `cls(**params)` of a Runge-Kutta class with the given arrays (`butcher.py` 46-68). -/
noncomputable def callRK (g : RK) (params : PyDict PyVal) : PyResult RK :=
  if ∃ n, n ∉ ["padding"] ∧ params n ≠ none then .error .typeError
  else do
    let p ← paramPadding (params "padding")
    g.init p

/-- `Generator(**params)`. `qcoeff/__init__.py` 269. -/
noncomputable def QClass.call (G : QClass) (params : PyDict PyVal) : PyResult (Σ M, QGenerator M) :=
  match G with
  | .coll => callColl params
  | .rk T => do
    let g ← callRK T.toRK params
    return ⟨g.s, g.toQGenerator⟩

/-- `qcoeff/__init__.py` 239-271, `genQCoeffs(qType, form, hCoeffs, embedded, **params)`. -/
noncomputable def genQCoeffs (qType : String) (form : String := "Z2N") (hCoeffs : Bool := false)
    (embedded : Bool := false) (params : PyDict PyVal := fun _ => none) : PyResult (Σ M, QCoeffs M) := do
  match Q_GENERATORS qType with
  | none => throw .valueError
  | some G =>
    let gen ← G.call params
    let out ← gen.2.genCoeffs form hCoeffs embedded
    return ⟨gen.1, out⟩

/-- `collocation.py` 40-44, `Collocation.DEFAULT_PARAMS`. -/
def collDefaultParams : PyDict PyVal := fun n =>
  if n = "nNodes" then some (.int 4)
  else if n = "nodeType" then some (.str "LEGENDRE")
  else if n = "quadType" then some (.str "RADAU-RIGHT")
  else none

/-- `qcoeff/__init__.py` 25-31, `getInstance()`; the Runge-Kutta classes have no `DEFAULT_PARAMS`. -/
noncomputable def QClass.getInstance (G : QClass) : PyResult (Σ M, QGenerator M) :=
  match G.call (fun _ => none) with
  | .error .typeError =>
    match G with
    | .coll => G.call collDefaultParams
    | .rk _ => .error .attributeError
  | r => r

/-! ## Arrays with identity -/

/-- The array attributes of a Runge-Kutta class. `butcher.py` 100-105. -/
inductive RKAttr
  | A | b | c | b2
  deriving DecidableEq

/-- Identity of an array: an attribute of the class with a given name, or an array created later.
Arrays of `butcher.py` 46-92 and `qcoeff/__init__.py` 115-125. -/
inductive QAddr
  | cls (name : String) (attr : RKAttr)
  | new (k : ℕ)
  deriving DecidableEq

/-- The content of the arrays by position (vectors have one row; shapes do not change), and the number of
arrays created so far. Arrays of `butcher.py` 46-92 and `qcoeff/__init__.py` 115-125. -/
structure QHeap where
  content : QAddr → ℕ → ℕ → ℝ
  next : ℕ

/-- Content of a vector (nodes, weights; `butcher.py` 100-105). -/
def vecContent {M : ℕ} (v : Fin M → ℝ) : ℕ → ℕ → ℝ := fun _ j => if h : j < M then v ⟨j, h⟩ else 0
/-- Content of a matrix (`butcher.py` 100). -/
def matContent {M : ℕ} (A : Matrix (Fin M) (Fin M) ℝ) : ℕ → ℕ → ℝ := fun i j =>
  if h : i < M ∧ j < M then A ⟨i, h.1⟩ ⟨j, h.2⟩ else 0

/-- The class arrays as `checkAndStore` makes them (`butcher.py` 99-105: each class has its own copies). -/
noncomputable def classContent (T : RKTable) : RKAttr → ℕ → ℕ → ℝ
  | .A => matContent T.toRK.A
  | .b => vecContent T.toRK.b
  | .c => vecContent T.toRK.c
  | .b2 => match T.toRK.b2 with
    | none => fun _ _ => 0
    | some v => vecContent v.2

/-- The heap after the import of the package. `butcher.py` 99-118. -/
noncomputable def QHeap.init : QHeap where
  content
    | .cls name attr => match Tables.rkSchemes.find? fun T => T.name = name with
      | none => fun _ _ => 0
      | some T => classContent T attr
    | .new _ => fun _ _ => 0
  next := 0

/-- A new array. `butcher.py` 46-68. -/
def QHeap.alloc (s : QHeap) (x : ℕ → ℕ → ℝ) : QAddr × QHeap :=
  (.new s.next, { content := Function.update s.content (.new s.next) x, next := s.next + 1 })

/-- The arrays of a class as they are now. `butcher.py` 70-92. -/
noncomputable def QHeap.readRK (s : QHeap) (T : RKTable) : RK where
  s := T.toRK.s
  A := Matrix.of fun i j => s.content (.cls T.name .A) i j
  b := fun j => s.content (.cls T.name .b) 0 j
  c := fun j => s.content (.cls T.name .c) 0 j
  b2 := T.toRK.b2.map fun v => ⟨v.1, fun j => s.content (.cls T.name .b2) 0 j⟩

/-- The arrays returned by `genCoeffs`, by identity; stacked weights are one array here, whose second row is
`weights2`. `qcoeff/__init__.py` 115-125. -/
structure QRet where
  nodes : QAddr
  weights : QAddr
  mat : QAddr
  hCoeffs : Option QAddr

/-- Content of the array of weights: one row, or two with embedded weights. `qcoeff/__init__.py` 121-122. -/
def weightsContent {M : ℕ} (out : QCoeffs M) : ℕ → ℕ → ℝ := fun i j =>
  match out.weights2 with
  | none => vecContent out.weights 0 j
  | some w2 => if i = 0 then vecContent out.weights 0 j else vecContent w2 0 j

/-- `butcher.py` 70-82: the attribute of the class itself if the object has it and it is what is asked for, a new
array with the content `x` otherwise. -/
def returnArray (own : Option String) (attr : RKAttr) (asked : Bool) (x : ℕ → ℕ → ℝ) (s : QHeap) :
    QAddr × QHeap :=
  match own with
  | some name => if asked then (.cls name attr, s) else s.alloc x
  | none => s.alloc x

/-- `qcoeff/__init__.py` 115-125 with identities: `own` is the name of the class whose arrays the object has (no
padding), `none` if the object has arrays of its own. -/
def returnArrays {M : ℕ} (own : Option String) (form : String) (embedded : Bool) (out : QCoeffs M)
    (s : QHeap) : QRet × QHeap :=
  let n := returnArray own .c true (vecContent out.nodes) s
  let w := returnArray own .b (!embedded) (weightsContent out) n.2
  let m := returnArray own .A (form = "Z2N") (matContent out.mat) w.2
  match out.hCoeffs with
  | none => (⟨n.1, w.1, m.1, none⟩, m.2)
  | some h =>
    let a := m.2.alloc (vecContent h)
    (⟨n.1, w.1, m.1, some a.1⟩, a.2)

/-- `genQCoeffs` on the state of the process: the values at the time of the call, and the arrays.
`qcoeff/__init__.py` 239-271. -/
noncomputable def genQCoeffsH (qType form : String) (hCoeffs embedded : Bool) (params : PyDict PyVal) (s : QHeap) :
    PyResult ((Σ M, QCoeffs M) × QRet) × QHeap :=
  match Q_GENERATORS qType with
  | none => (.error .valueError, s)
  | some .coll =>
    match (do
      let gen ← callColl params
      let out ← gen.2.genCoeffs form hCoeffs embedded
      return ⟨gen.1, out⟩ : PyResult (Σ M, QCoeffs M)) with
    | .error e => (.error e, s)
    | .ok out =>
      let r := returnArrays none form embedded out.2 s
      (.ok (out, r.1), r.2)
  | some (.rk T) =>
    match (do
      let g ← callRK (s.readRK T) params
      let out ← g.toQGenerator.genCoeffs form hCoeffs embedded
      return ⟨g.s, out⟩ : PyResult (Σ M, QCoeffs M)) with
    | .error e => (.error e, s)
    | .ok out =>
      let own := match paramPadding (params "padding") with
        | .ok none => some T.name
        | _ => none
      let r := returnArrays own form embedded out.2 s
      (.ok (out, r.1), r.2)

/-- What a program does: calls of `genQCoeffs`, and writes into arrays that it got.
Callers of `qcoeff/__init__.py` 239-271. -/
inductive QAction
  | call (qType form : String) (hCoeffs embedded : Bool) (params : PyDict PyVal)
  | write (a : QAddr) (x : ℕ → ℕ → ℝ)

/-- The state of the process and the arrays that were handed out. Callers of `qcoeff/__init__.py` 239-271. -/
structure QSession where
  heap : QHeap
  known : List QAddr

/-- The arrays of a result. `qcoeff/__init__.py` 115-125. -/
def QRet.arrays (r : QRet) : List QAddr := [r.nodes, r.weights, r.mat] ++ r.hCoeffs.toList

/-- One action; only arrays that were handed out can be written to.
Callers of `qcoeff/__init__.py` 239-271. -/
noncomputable def QSession.act (S : QSession) : QAction → QSession
  | .call qType form h e params =>
    match genQCoeffsH qType form h e params S.heap with
    | (.error _, s) => ⟨s, S.known⟩
    | (.ok (_, r), s) => ⟨s, r.arrays ++ S.known⟩
  | .write a x =>
    if a ∈ S.known then { S with heap := { S.heap with content := Function.update S.heap.content a x } } else S

/-- The session after a list of actions in a new process. Callers of `qcoeff/__init__.py` 239-271. -/
noncomputable def QSession.run (acts : List QAction) : QSession :=
  acts.foldl QSession.act ⟨QHeap.init, []⟩

end QMat
