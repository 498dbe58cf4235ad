import Verif.Model.Registry
import Verif.Model.Tables

/-!
# Model of the import of a subpackage: `importAll`, retries after an exception, reloads

`qmat.qcoeff` and `qmat.qdelta` create an empty registry and import all their submodules, whose class statements register the classes
(`qcoeff/__init__.py` 212, 273-276, `qdelta/__init__.py` 214, 315-318, `utils/__init__.py` 58-63).  What Python does around this code:

* a module found in `sys.modules` is not executed again;
* a module enters `sys.modules` before its body is executed, and is taken out again when the body raises, while modules that it
  imported and that were executed to the end stay;
* `importlib.reload` executes the body of a module once more, and leaves the module in `sys.modules` if that raises.

Any statement may raise for reasons outside of the code (`KeyboardInterrupt`, `MemoryError`, an error of a dependency): where faults are
allowed, an execution may stop with any exception before any statement, so the executions are a relation.
A class is named by its class statement: the object made by a second execution of the statement is not distinguished from the first one.
The list `__all__` and the lookup of names in module namespaces are not modelled; `RK_SCHEMES` is left out.
-/

namespace QMat.Registry

/-- What matters of a top-level statement of a submodule: the import of a submodule of the same package (`qdelta/diag.py` 26), or a class
statement with its decorator `@register`, `@registerRK` or `@registerTable` (`qcoeff/collocation.py` 23, `qdelta/algebraic.py` 26). -/
inductive Stmt
  | imp (m : String)
  | reg (cls : ℕ)
  deriving DecidableEq

/-- A subpackage: the names of its submodules as `pkgutil.walk_packages` finds them, their bodies, and the function `register`.
`utils/__init__.py` 61, `qcoeff/__init__.py` 215-237, `qdelta/__init__.py` 217-231. -/
structure Package where
  walk : List String
  body : String → List Stmt
  register : ℕ → Dict → Dict × PyResult Unit

/-- What a session knows of a subpackage: whether it is in `sys.modules`, which of its submodules are, and the registry made by the
latest execution of its body. `qcoeff/__init__.py` 212, `qdelta/__init__.py` 214. -/
structure ImportState where
  package : Bool
  modules : List String
  dico : Dict

/-- A new interpreter, before the first `import`. `qcoeff/__init__.py` 212, `qdelta/__init__.py` 214. -/
def ImportState.init : ImportState := ⟨false, [], []⟩

namespace Package

variable (p : Package) (faults : Bool)

/-- Executions of a list of statements. `utils/__init__.py` 61-63 with the bodies of the submodules. -/
inductive Exec : List Stmt → ImportState → ImportState → PyResult Unit → Prop
  | done {s} : Exec [] s s (.ok ())
  | fault {st rest s e} (hf : faults = true) : Exec (st :: rest) s s (.error e)
  | found {m rest s s' r} (hm : m ∈ s.modules) (h : Exec rest s s' r) : Exec (.imp m :: rest) s s' r
  | load {m rest s s1 s' r} (hm : m ∉ s.modules) (hb : Exec (p.body m) { s with modules := m :: s.modules } s1 (.ok ()))
      (h : Exec rest s1 s' r) : Exec (.imp m :: rest) s s' r
  | loadErr {m rest s s1 e} (hm : m ∉ s.modules) (hb : Exec (p.body m) { s with modules := m :: s.modules } s1 (.error e)) :
      Exec (.imp m :: rest) s { s1 with modules := s1.modules.filter (· ≠ m) } (.error e)
  | reg {c rest s s' d r} (hr : p.register c s.dico = (d, .ok ())) (h : Exec rest { s with dico := d } s' r) : Exec (.reg c :: rest) s s' r
  | regErr {c rest s d e} (hr : p.register c s.dico = (d, .error e)) : Exec (.reg c :: rest) s { s with dico := d } (.error e)

/-- The body of the package: a new registry, then `importAll`. `qcoeff/__init__.py` 212, 276, `qdelta/__init__.py` 214, 318,
`utils/__init__.py` 58-63. -/
def main : List Stmt := p.walk.map .imp

/-- `import qmat.<package>`. `qcoeff/__init__.py` 1-276, `qdelta/__init__.py` 1-318. -/
inductive Import : ImportState → ImportState → PyResult Unit → Prop
  | found {s} (hs : s.package = true) : Import s s (.ok ())
  | load {s s'} (hs : s.package = false) (h : p.Exec faults p.main { s with package := true, dico := [] } s' (.ok ())) : Import s s' (.ok ())
  | loadErr {s s' e} (hs : s.package = false) (h : p.Exec faults p.main { s with package := true, dico := [] } s' (.error e)) :
      Import s { s' with package := false } (.error e)

/-- `importlib.reload` of the package. `qcoeff/__init__.py` 212, 276, `qdelta/__init__.py` 214, 318. -/
def Reload (s s' : ImportState) (r : PyResult Unit) : Prop := s.package = true ∧ p.Exec faults p.main { s with dico := [] } s' r

/-- `importlib.reload` of a submodule. `qdelta/algebraic.py` 26-84 and the other submodules. -/
def ReloadModule (m : String) (s s' : ImportState) (r : PyResult Unit) : Prop :=
  s.package = true ∧ m ∈ s.modules ∧ p.Exec faults (p.body m) s s' r

/-- States of a session in which the package and its submodules are imported and reloaded in any order, whatever is raised.
`utils/__init__.py` 58-63. -/
inductive Session : ImportState → Prop
  | start : Session .init
  | import {s s' r} (h : Session s) (hi : p.Import faults s s' r) : Session s'
  | reload {s s' r} (h : Session s) (hi : p.Reload faults s s' r) : Session s'
  | reloadModule {m s s' r} (h : Session s) (hi : p.ReloadModule faults m s s' r) : Session s'

end Package

/-! ## The package `qmat.qdelta` -/

/-- `qdelta/algebraic.py`, `diag.py`, `timestepping.py`: the classes with the rest of their MRO (positions in this list), their own
`aliases`, and, if they define `computeQDelta`, whether its `k` has the default `None`. -/
def qdeltaDecls : List (String × List ℕ × Option (List String) × Option Bool) := [
  ("object", [], none, none), ("QDeltaGenerator", [0], none, some true), ("FromTable", [1, 0], none, some true),
  ("TimeStepping", [1, 0], none, none),
  ("PIC", [1, 0], some ["Picard"], some true), ("Exact", [1, 0], some ["EXACT"], some true), ("LU", [1, 0], none, some true),
  ("LU2", [6, 1, 0], none, some true), ("QPar", [1, 0], some ["Qpar", "Qdiag"], some true), ("GS", [1, 0], some ["GaussSeidel"], some true),
  ("LDU", [1, 0], none, some true),
  ("MIN", [1, 0], some ["MIN-Speck"], some true), ("MIN3", [2, 1, 0], some ["Magic_Numbers"], none), ("MIN_VDHS", [2, 1, 0], some ["VDHS"], none),
  ("MIN_SR_NS", [1, 0], some ["MIN-SR-NS", "MIN_GT"], some true), ("MIN_SR_S", [1, 0], some ["MIN-SR-S"], some true),
  ("MIN_SR_FLEX", [15, 1, 0], some ["MIN-SR-FLEX"], some false), ("Jumper", [14, 1, 0], some ["JUMPER", "FB"], some false),
  ("FlexJumper", [17, 14, 1, 0], some ["FLEX-JUMPER", "FB2"], some false), ("DNODES", [14, 1, 0], some ["DNODES-1"], some true),
  ("DNODES2", [19, 14, 1, 0], some ["DNODES-2"], none), ("DNODES3", [19, 14, 1, 0], some ["DNODES-3"], none),
  ("DNODES4", [19, 14, 1, 0], some ["DNODES-4"], none), ("DNODES5", [19, 14, 1, 0], some ["DNODES-5"], none),
  ("BE", [3, 1, 0], some ["IE"], some true), ("FE", [3, 1, 0], some ["EE"], some true), ("TRAP", [3, 1, 0], some ["CN"], some true),
  ("BEPAR", [3, 1, 0], some ["IEpar"], some true), ("TRAPAR", [3, 1, 0], none, some true),
  ("SOE", [3, 1, 0], some ["LeapFrog", "LF"], some true)]

/-- The class objects of `qmat.qdelta`. `qdelta/__init__.py` 65-110, `algebraic.py` 26-84, `diag.py` 37-350, `timestepping.py` 26-161. -/
def qdeltaHeap : Heap := fun i =>
  match qdeltaDecls[i]? with
  | none => { name := "", module := "", mro := [i], attrs := [] }
  | some (name, bases, aliases, k) =>
    { name := name, module := "qmat.qdelta", mro := i :: bases
      attrs := (if i = 1 then [("_K_DEPENDENT", .bool false), ("__init__", .function 1 [⟨"self", false, true, false⟩, ⟨"kwargs", true, false, false⟩])] else []) ++
        (match aliases with | some l => [("aliases", .strList l)] | none => []) ++
        (match k with
          | some d => [("computeQDelta", .function (100 + i) [⟨"self", false, true, false⟩, ⟨"k", false, true, d⟩])]
          | none => []) }

/-- `qdelta/algebraic.py`, `diag.py`, `mincoeffs.py`, `timestepping.py`: imports of submodules and class statements in their order; the
modules are found in alphabetic order.  The constructors that the classes define themselves have a parameter `**kwargs` like the inherited
one, which stands for them. -/
def qdeltaPackage : Package where
  walk := ["algebraic", "diag", "mincoeffs", "timestepping"]
  body m :=
    if m = "algebraic" then (List.range' 4 7).map .reg
    else if m = "diag" then .imp "mincoeffs" :: (List.range' 11 13).map .reg
    else if m = "timestepping" then (List.range' 24 6).map .reg
    else []
  register c d := (registerQDelta qdeltaHeap c d).2

/-! ## The package `qmat.qcoeff` -/

/-- The Runge-Kutta classes that are subclasses of the one before them. `butcher.py` 670, 784, 855, 896, 930, 963, 1003. -/
def rkDerived : List String :=
  ["ARK548L2SAESDIRK", "ARK548L2SAERK2", "ARK324L2SAESDIRK", "ARK222ERK", "ARK443ERK", "ARK343ERK", "ARK4ERK"]

/-- The class objects of `qmat.qcoeff`: `object`, `QGenerator`, `RK`, `Collocation`, then the Runge-Kutta classes in the order of their
definition.  `Collocation()` is a `TypeError`, with `DEFAULT_PARAMS` it works. `qcoeff/__init__.py` 22-61, `butcher.py` 22-93, 130-1030,
`collocation.py` 20-74.  Every Runge-Kutta class is given its own `order`, which some inherit. -/
def qcoeffHeap : Heap := fun i =>
  let props (l : List String) : List (String × PyAttr) := l.mapIdx fun j n => (n, .property (10 * i + j))
  match i with
  | 0 => { name := "object", module := "builtins", mro := [0], attrs := [] }
  | 1 => { name := "QGenerator", module := "qmat.qcoeff", mro := [1, 0], attrs := props ["nodes", "Q", "weights", "order"] }
  | 2 => { name := "RK", module := "qmat.qcoeff.butcher", mro := [2, 1, 0], attrs := props ["nodes", "weights", "Q"] }
  | 3 => { name := "Collocation", module := "qmat.qcoeff.collocation", mro := [3, 1, 0]
           attrs := ("aliases", .strList ["coll"]) :: ("DEFAULT_PARAMS", .other 0) :: props ["nodes", "weights", "Q", "order"]
           call := .error .typeError }
  | n + 4 =>
    match Tables.rkSchemes[n]? with
    | none => { name := "", module := "", mro := [i], attrs := [] }
    | some T =>
      { name := T.name, module := "qmat.qcoeff.butcher", mro := if T.name ∈ rkDerived then [i, i - 1, 2, 1, 0] else [i, 2, 1, 0]
        attrs := (if T.aliases = [] then [] else [("aliases", .strList T.aliases)]) ++ props ["order"] }

/-- `qcoeff/butcher.py`, `collocation.py`: the class statements in their order.  What `@registerRK` stores in `RK_SCHEMES` is left out, its
checks on the shapes are settled in C34. -/
def qcoeffPackage : Package where
  walk := ["butcher", "collocation"]
  body m :=
    if m = "butcher" then (List.range' 4 Tables.rkSchemes.length).map .reg
    else if m = "collocation" then [.reg 3]
    else []
  register c d := registerQ qcoeffHeap c d

end QMat.Registry
