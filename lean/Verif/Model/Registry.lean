import Verif.Model.Py

/-!
# Model of the registries: `qmat/utils/__init__.py`, `register` of `qcoeff` and `qdelta`, `checkAndStore`

Classes are objects with identity, so they live in a heap and are named by numbers.  Python dictionaries are
association lists in insertion order.  A function that raises after it changed something returns the
changed state next to the error.
-/

namespace QMat.Registry

/-- A parameter of a signature: its name, whether its kind is `VAR_KEYWORD` (`**kwargs`) or
`POSITIONAL_OR_KEYWORD`, and whether its default is `None`.
`utils/__init__.py` 33-36, `qdelta/__init__.py` 222-226. -/
structure PyParam where
  name : String
  varKeyword : Bool
  positionalOrKeyword : Bool
  defaultNone : Bool
  deriving DecidableEq

/-- A class attribute.  Properties and functions are compared by identity (`id`).
`utils/__init__.py` 19-25. -/
inductive PyAttr
  | property (id : ℕ)
  | function (id : ℕ) (params : List PyParam)
  | strList (l : List String)
  | bool (b : Bool)
  | none
  | other (id : ℕ)
  deriving DecidableEq

/-- A class object: `__name__`, `__module__`, the ids of `cls.mro()` (itself first, `object` last), its own
attributes, and the result of calling it without arguments and with `DEFAULT_PARAMS`.
`utils/__init__.py` 17-76. -/
structure PyClass where
  name : String
  module : String
  mro : List ℕ
  attrs : List (String × PyAttr)
  call : PyResult Unit := .ok ()
  callDefault : PyResult Unit := .ok ()

/-- The class objects. `utils/__init__.py` 17-76. -/
abbrev Heap := ℕ → PyClass

/-- `getattr(cls, name)`: the first of the classes of the MRO that has the attribute.
`utils/__init__.py` 19-20, 50. -/
def getattr (h : Heap) (cls : ℕ) (name : String) : Option PyAttr :=
  (h cls).mro.findSome? fun c => (h c).attrs.lookup name

/-- `setattr(cls, name, v)`: own attribute. `qdelta/__init__.py` 226, 229. -/
def setattr (h : Heap) (cls : ℕ) (name : String) (v : PyAttr) : Heap :=
  Function.update h cls { h cls with attrs := (name, v) :: (h cls).attrs }

/-- A registry: key, class. `utils/__init__.py` 41-55. -/
abbrev Dict := List (String × ℕ)

/-! ## `qmat/utils/__init__.py` -/

/-- `utils/__init__.py` 17-28, `checkOverriding(cls, name, isProperty)` with `mroIndex=-2`. -/
def checkOverriding (h : Heap) (cls : ℕ) (name : String) (isProperty : Bool := false) : PyResult Unit :=
  match getattr h cls name with
  | none => .error .attributeError
  | some method =>
    let mro := (h cls).mro
    match (if 2 ≤ mro.length then mro[mro.length - 2]? else none) with
    | none => .error .indexError
    | some p =>
      match getattr h p name with
      | none => .error .attributeError
      | some parent =>
        if method = parent then .error .assertionError
        else if isProperty then
          match method with
          | .property _ => .ok ()
          | _ => .error .assertionError
        else .ok ()

/-- `utils/__init__.py` 31-38, `checkGenericConstr(cls)`; `inspect.signature` of something that is not
callable is a `TypeError`. -/
def checkGenericConstr (h : Heap) (cls : ℕ) : PyResult Unit :=
  match getattr h cls "__init__" with
  | some (.function _ params) =>
    match params.find? fun p => p.name = "kwargs" with
    | none => .error .assertionError
    | some p => if p.varKeyword then .ok () else .error .assertionError
  | some _ => .error .typeError
  | none => .error .attributeError

/-- `utils/__init__.py` 41-44, `storeAlias(cls, dico, alias)`. -/
def storeAlias (cls : ℕ) (dico : Dict) (key : String) : Dict × PyResult Unit :=
  if (dico.lookup key).isSome then (dico, .error .assertionError)
  else (dico ++ [(key, cls)], .ok ())

/-- `utils/__init__.py` 54-55: the loop over the aliases. -/
def storeAliases (cls : ℕ) (dico : Dict) : List String → Dict × PyResult Unit
  | [] => (dico, .ok ())
  | a :: rest =>
    match storeAlias cls dico a with
    | (dico, .error e) => (dico, .error e)
    | (dico, .ok ()) => storeAliases cls dico rest

/-- `utils/__init__.py` 47-55, `storeClass(cls, dico)`.  An alias that is not a string, or not hashable, is
not modelled. -/
def storeClass (h : Heap) (cls : ℕ) (dico : Dict) : Dict × PyResult Unit :=
  match storeAlias cls dico (h cls).name with
  | (dico, .error e) => (dico, .error e)
  | (dico, .ok ()) =>
    match getattr h cls "aliases" with
    | none | some .none | some (.strList []) | some (.bool false) => (dico, .ok ())
    | some (.strList l) => storeAliases cls dico l
    | some _ => (dico, .error .assertionError)

/-- `utils/__init__.py` 69-72: the filter. -/
def moduleCheck (h : Heap) (module : Option String) (cls : ℕ) : Bool :=
  match module with
  | none => true
  | some m => pyEndsWith (h cls).module ("." ++ m)

/-- `utils/__init__.py` 66-76, `getClasses(dico, module)`: the loop, with the classes collected so far. -/
def getClassesLoop (h : Heap) (module : Option String) : Dict → Dict → Dict
  | classes, [] => classes
  | classes, (key, cls) :: rest =>
    if cls ∉ classes.map Prod.snd ∧ moduleCheck h module cls then
      getClassesLoop h module (classes ++ [(key, cls)]) rest
    else getClassesLoop h module classes rest

/-- `utils/__init__.py` 66-76, `getClasses(dico, module=None)`. -/
def getClasses (h : Heap) (dico : Dict) (module : Option String := none) : Dict :=
  getClassesLoop h module [] dico

/-! ## `qcoeff/__init__.py` -/

/-- `qcoeff/__init__.py` 25-31, `getInstance()`. -/
def getInstance (h : Heap) (cls : ℕ) : PyResult Unit :=
  match (h cls).call with
  | .ok () => .ok ()
  | .error .typeError =>
    match getattr h cls "DEFAULT_PARAMS" with
    | none => .error .attributeError
    | some _ => (h cls).callDefault
  | .error e => .error e

/-- `qcoeff/__init__.py` 217-234: the checks of `register(cls)`. -/
def checkQGenerator (h : Heap) (cls : ℕ) : PyResult Unit := do
  checkOverriding h cls "nodes" true
  checkOverriding h cls "Q" true
  checkOverriding h cls "weights" true
  checkOverriding h cls "order" true
  match (h cls).call with
  | .ok () => .ok ()
  | .error .typeError =>
    match getattr h cls "DEFAULT_PARAMS" with
    | none => .error .attributeError
    | some _ =>
      match (h cls).callDefault with
      | .ok () => .ok ()
      | .error _ => .error .typeError
  | .error e => .error e

/-- `qcoeff/__init__.py` 215-237, `register(cls)`. -/
def registerQ (h : Heap) (cls : ℕ) (dico : Dict) : Dict × PyResult Unit :=
  match checkQGenerator h cls with
  | .error e => (dico, .error e)
  | .ok () => storeClass h cls dico

/-! ## `qdelta/__init__.py` -/

/-- `qdelta/__init__.py` 217-231, `register(cls)`: also sets `_K_DEPENDENT` and replaces `__init__`
(the wrapper keeps the signature, `functools.wraps`). -/
def registerQDelta (h : Heap) (cls : ℕ) (dico : Dict) : Heap × Dict × PyResult Unit :=
  match checkGenericConstr h cls with
  | .error e => (h, dico, .error e)
  | .ok () =>
    match checkOverriding h cls "computeQDelta" with
    | .error e => (h, dico, .error e)
    | .ok () =>
      match getattr h cls "computeQDelta" with
      | some (.function _ params) =>
        match params.find? fun p => p.name = "k" with
        | none => (h, dico, .error .assertionError)
        | some par =>
          if par.positionalOrKeyword then
            let h := if par.defaultNone then h else setattr h cls "_K_DEPENDENT" (.bool true)
            match getattr h cls "__init__" with
            | some (.function i ps) =>
              let h := setattr h cls "__init__" (.function i ps)
              let r := storeClass h cls dico
              (h, r.1, r.2)
            | _ => (h, dico, .error .typeError)
          else (h, dico, .error .assertionError)
      | _ => (h, dico, .error .typeError)

/-- `qdelta/__init__.py` 77-81, `isKDependent`. -/
def isKDependent (h : Heap) (cls : ℕ) : Bool := getattr h cls "_K_DEPENDENT" = some (.bool true)

/-! ## `qcoeff/butcher.py` -/

/-- The class attributes `A`, `b`, `c`, `b2` of a Runge-Kutta class, as nested lists. `butcher.py` 99-105. -/
structure RKAttrs where
  A : List (List ℝ)
  b : List ℝ
  c : List ℝ
  b2 : Option (List ℝ) := none

/-- `np.array(A, dtype=float).shape` of a nested list: a `ValueError` for rows of different sizes.
`butcher.py` 100-105. -/
def npShape2 (A : List (List ℝ)) : PyResult (List ℕ) :=
  match A with
  | [] => .ok [0]
  | r :: rest => if rest.all fun s => s.length = r.length then .ok [A.length, r.length] else .error .valueError

/-- `butcher.py` 96-118, `checkAndStore(cls)`.  `cls.order` is the class attribute: a property object is
not `None`. -/
def checkAndStore (h : Heap) (cls : ℕ) (t : RKAttrs) (dico : Dict) : Dict × PyResult Unit :=
  match npShape2 t.A with
  | .error e => (dico, .error e)
  | .ok shape =>
    if t.b.length ≠ t.c.length then (dico, .error .assertionError)
    else if shape ≠ [t.c.length, t.c.length] then (dico, .error .assertionError)
    else match getattr h cls "order" with
      | none => (dico, .error .attributeError)
      | some .none => (dico, .error .assertionError)
      | some _ => storeClass h cls dico

/-- `butcher.py` 120-122, `registerRK(cls)`: the registries `RK_SCHEMES` and `Q_GENERATORS`. -/
def registerRK (h : Heap) (cls : ℕ) (t : RKAttrs) (rk q : Dict) : (Dict × Dict) × PyResult Unit :=
  match checkAndStore h cls t rk with
  | (rk, .error e) => ((rk, q), .error e)
  | (rk, .ok ()) =>
    let r := registerQ h cls q
    ((rk, r.1), r.2)

end QMat.Registry
