import Verif.Model.QDeltaCache
import Verif.Model.Registry

/-!
# Model of `QDeltaGenerator.getQDelta` and of the registries used by several threads

A statement is split at every access to something that threads share: an attribute of the generator object, an
item of a dictionary, a registry.  Each access is one step, as the interpreter guarantees it (with the
global lock, or with the locks per object of the free-threaded build), and between any two steps of a thread
other threads may do any number of steps.  An exception from outside (`KeyboardInterrupt`, a killed
thread) may end a call between any two steps.
-/

namespace QMat

open Matrix

/-! ## One generator object, several threads -/

/-- The attribute `_QDelta`: absent, an array, or a dictionary; dictionaries have an identity because a thread
may go on using the one that another thread has replaced. `qdelta/__init__.py` 140-146. -/
inductive TAttr
  | unset
  | array (a : ℕ)
  | dict (d : ℕ)

/-- What the threads share: the arrays and the dictionaries created so far (address = position), the
attributes `_QDelta` (`qdelta/__init__.py` 140-146) and `_QDelta_MIN_SR_S` (`diag.py` 289-293). -/
structure TStore (n : ℕ) where
  heap : List (Matrix (Fin n) (Fin n) ℝ)
  dicts : List (List (Option ℤ × ℕ))
  attr : TAttr
  memo : Option ℕ

namespace TStore

variable {n : ℕ}

/-- Content of the array at an address. Arrays of `qdelta/__init__.py` 123-149. -/
def read (s : TStore n) (a : ℕ) : Matrix (Fin n) (Fin n) ℝ := s.heap.getD a 0

/-- The store with a new array, whose address is the length of the old heap.
Arrays of `qdelta/__init__.py` 123-149. -/
def alloc (s : TStore n) (A : Matrix (Fin n) (Fin n) ℝ) : TStore n := { s with heap := s.heap ++ [A] }

end TStore

/-- The exception caught in `qdelta/__init__.py` 141. -/
inductive Miss
  | attribute
  | key
  | other

/-- Where a thread is in `getQDelta(k, copy)`. `qdelta/__init__.py` 140-149, `diag.py` 289-293. -/
inductive Pc
  /-- `qdelta/__init__.py` 140: about to load `self._QDelta`. -/
  | load
  /-- `qdelta/__init__.py` 140: about to evaluate `[k]` on the dictionary that was loaded. -/
  | index (d : ℕ)
  /-- `qdelta/__init__.py` 142: about to call `computeQDelta(k)`; in `MIN_SR_FLEX` about to look for
  `self._QDelta_MIN_SR_S` (`diag.py` 290). -/
  | compute (m : Miss)
  /-- `diag.py` 292: `super().computeQDelta()`. -/
  | memoCompute (m : Miss)
  /-- `diag.py` 292: the assignment. -/
  | memoStore (m : Miss) (a : ℕ)
  /-- `diag.py` 293: `return self._QDelta_MIN_SR_S`. -/
  | memoLoad (m : Miss)
  /-- `qdelta/__init__.py` 143-148: about to store the result. -/
  | store (m : Miss) (a : ℕ)
  /-- `qdelta/__init__.py` 146: `self._QDelta` was loaded, about to assign its item. -/
  | insert (d a : ℕ)
  /-- `qdelta/__init__.py` 149. -/
  | ret (a : ℕ)

/-- The calls: `getQDelta(k, copy)`, `getSDelta(k)`, and `genCoeffs([k, *ks])` in the form `Z2N`
(`genCoeffs(k)` is `getQDelta(k, False)` or `getSDelta(k)`, and the form `N2N` with a list a sequence of
`getSDelta`).  `qdelta/__init__.py` 123-211. -/
inductive TCall
  | getQDelta (k : Option ℤ) (copy : Bool)
  | getSDelta (k : Option ℤ)
  | genCoeffs (k : Option ℤ) (ks : List (Option ℤ))

/-- The first sweep of a call and the others. `qdelta/__init__.py` 206. -/
def TCall.first : TCall → Option ℤ
  | .getQDelta k _ => k
  | .getSDelta k => k
  | .genCoeffs k _ => k

/-- The sweeps of a call after the first one. `qdelta/__init__.py` 206. -/
def TCall.rest : TCall → List (Option ℤ)
  | .genCoeffs _ ks => ks
  | _ => []

/-- A thread: idle, or in a call, with the arrays collected so far (`qdelta/__init__.py` 206), the
sweep it works on and those to come, and the place in `getQDelta`. -/
inductive TThread
  | idle
  | run (c : TCall) (got : List ℕ) (k : Option ℤ) (todo : List (Option ℤ)) (pc : Pc)

/-- A call that has ended: the thread, the call, the address of the array that was handed out (if it is one
of `getQDelta` or `getSDelta`), and what the caller sees. Callers of `qdelta/__init__.py` 123-211. -/
structure TEntry where
  thread : ℕ
  call : TCall
  addr : Option ℕ
  result : PyResult QDArray

/-- The store, the threads, the addresses of the arrays that were handed out, and the calls that have ended.
Callers of `qdelta/__init__.py` 123-211. -/
structure TConfig (n : ℕ) where
  store : TStore n
  threads : ℕ → TThread
  known : List ℕ
  log : List TEntry

/-- A new object, all threads idle. `qdelta/__init__.py` 83-85. -/
def TConfig.init (n : ℕ) : TConfig n := ⟨⟨[], [], .unset, none⟩, fun _ => .idle, [], []⟩

/-- Outcome of one step of a call: it goes on, or it ends with an exception, or it ends by handing out an
array, or a stack of matrices. `qdelta/__init__.py` 140-149, 206-208. -/
inductive TNext (n : ℕ)
  | cont (got : List ℕ) (k : Option ℤ) (todo : List (Option ℤ)) (pc : Pc)
  | raise (e : PyErr)
  | array (a : ℕ)
  | stack (As : List (Matrix (Fin n) (Fin n) ℝ))

namespace QDeltaGen

variable (g : QDeltaGen)

/-- One step of a call. `qdelta/__init__.py` 139-149, 165-169, 206-208; `diag.py` 284-293. -/
def tnext (s : TStore g.size) (c : TCall) (got : List ℕ) (k : Option ℤ) (todo : List (Option ℤ)) :
    Pc → TStore g.size × TNext g.size
  | .load =>
    match s.attr with
    | .unset => (s, .cont got k todo (.compute .attribute))
    | .array a => if g.kDependent then (s, .cont got k todo (.compute .other)) else (s, .cont got k todo (.ret a))
    | .dict d => if g.kDependent then (s, .cont got k todo (.index d)) else (s, .cont got k todo (.compute .other))
  | .index d =>
    match (s.dicts.getD d []).lookup k with
    | some a => (s, .cont got k todo (.ret a))
    | none => (s, .cont got k todo (.compute .key))
  | .compute m =>
    if g.shared k then
      match s.memo with
      | some _ => (s, .cont got k todo (.memoLoad m))
      | none => (s, .cont got k todo (.memoCompute m))
    else
      match g.compute k with
      | .error e => (s, .raise e)
      | .ok A => (s.alloc A, .cont got k todo (.store m s.heap.length))
  | .memoCompute m =>
    match g.compute k with
    | .error e => (s, .raise e)
    | .ok A => (s.alloc A, .cont got k todo (.memoStore m s.heap.length))
  | .memoStore m a => ({ s with memo := some a }, .cont got k todo (.memoLoad m))
  | .memoLoad m =>
    match s.memo with
    | some a => (s, .cont got k todo (.store m a))
    | none => (s, .raise .attributeError)
  | .store .attribute a =>
    if g.kDependent then
      ({ s with dicts := s.dicts ++ [[(k, a)]], attr := .dict s.dicts.length }, .cont got k todo (.ret a))
    else ({ s with attr := .array a }, .cont got k todo (.ret a))
  | .store .key a =>
    match s.attr with
    | .dict d => (s, .cont got k todo (.insert d a))
    | .unset => (s, .raise .attributeError)
    | .array _ => (s, .raise .indexError)
  | .store .other _ => (s, .raise .exception)
  | .insert d a => ({ s with dicts := s.dicts.modify d ((k, a) :: ·) }, .cont got k todo (.ret a))
  | .ret a =>
    match c with
    | .getQDelta _ true => (s.alloc (s.read a), .array s.heap.length)
    | .getQDelta _ false => (s, .array a)
    | .getSDelta _ => (s.alloc (qgenT g.size * s.read a), .array s.heap.length)
    | .genCoeffs _ _ =>
      match todo with
      | k' :: todo => (s, .cont (got ++ [a]) k' todo .load)
      | [] => (s, .stack ((got ++ [a]).map s.read))

/-- What can happen: a thread begins a call, does one step, is interrupted, or somebody overwrites an array that
was handed out. Callers of `qdelta/__init__.py` 123-211. -/
inductive _root_.QMat.TAct (n : ℕ)
  | begin (t : ℕ) (c : TCall)
  | advance (t : ℕ)
  | interrupt (t : ℕ)
  | write (a : ℕ) (A : Matrix (Fin n) (Fin n) ℝ)

/-- One event; what is not possible has no effect. Callers of `qdelta/__init__.py` 123-211. -/
def tact (C : TConfig g.size) : TAct g.size → TConfig g.size
  | .begin t c =>
    match C.threads t with
    | .idle => { C with threads := Function.update C.threads t (.run c [] c.first c.rest .load) }
    | .run .. => C
  | .advance t =>
    match C.threads t with
    | .idle => C
    | .run c got k todo pc =>
      match g.tnext C.store c got k todo pc with
      | (s, .cont got k todo pc) =>
        { C with store := s, threads := Function.update C.threads t (.run c got k todo pc) }
      | (s, .raise e) =>
        { C with store := s, threads := Function.update C.threads t .idle,
                 log := C.log ++ [⟨t, c, none, .error e⟩] }
      | (s, .array a) =>
        { C with store := s, threads := Function.update C.threads t .idle, known := a :: C.known,
                 log := C.log ++ [⟨t, c, some a, .ok (.single g.size (s.read a))⟩] }
      | (s, .stack As) =>
        { C with store := s, threads := Function.update C.threads t .idle,
                 log := C.log ++ [⟨t, c, none, .ok (.stack g.size As)⟩] }
  | .interrupt t => { C with threads := Function.update C.threads t .idle }
  | .write a A =>
    if a ∈ C.known then { C with store := { C.store with heap := C.store.heap.set a A } } else C

/-- What a schedule leads to. Callers of `qdelta/__init__.py` 123-211. -/
def schedule (h : List (TAct g.size)) : TConfig g.size := h.foldl g.tact (TConfig.init g.size)

end QDeltaGen

/-! ## A registry, several threads -/

namespace Registry

/-- `dico[key] = cls`: the value of an existing key is replaced, a new key goes to the end.
`utils/__init__.py` 44. -/
def dictSet (d : Dict) (key : String) (cls : ℕ) : Dict :=
  if (d.lookup key).isSome then d.map fun e => if e.1 = key then (key, cls) else e
  else d ++ [(key, cls)]

/-- A thread: idle; in `storeClass(cls, dico)` about to check the first of the remaining keys
(`utils/__init__.py` 43) or, after the check, about to assign it (44); or in
`getClasses(dico)` with the size of the dictionary when the loop began, the position and the classes found
(74-76). -/
inductive RThread
  | idle
  | check (cls : ℕ) (key : String) (rest : List String)
  | assign (cls : ℕ) (key : String) (rest : List String)
  | iter (module : Option String) (size pos : ℕ) (classes : Dict)

/-- A call that has ended: `storeClass(cls)` with its outcome, or `getClasses(dico, module)` with its result
(`none` for the `RuntimeError` of a dictionary that changed size during the iteration) and, for
reference, the dictionary at that moment. Callers of `utils/__init__.py` 47-76. -/
inductive REntry
  | stored (t cls : ℕ) (r : PyResult Unit)
  | classes (t : ℕ) (module : Option String) (r : Option Dict) (now : Dict)

/-- The registry, the threads and the calls that have ended. Callers of `utils/__init__.py` 47-76. -/
structure RConfig where
  dico : Dict
  threads : ℕ → RThread
  log : List REntry

/-- A given registry, all threads idle. Callers of `utils/__init__.py` 47-76. -/
def RConfig.init (d : Dict) : RConfig := ⟨d, fun _ => .idle, []⟩

/-- What can happen: a thread begins `storeClass(cls, dico)` with a class whose name and aliases are `key` and
`rest`, or `getClasses(dico, module)`; does one step; or is interrupted. Callers of `utils/__init__.py` 47-76. -/
inductive RAct
  | store (t cls : ℕ) (key : String) (rest : List String)
  | getClasses (t : ℕ) (module : Option String)
  | advance (t : ℕ)
  | interrupt (t : ℕ)

/-- One event; what is not possible has no effect. `utils/__init__.py` 41-55, 66-77. -/
def ract (h : Heap) (C : RConfig) : RAct → RConfig
  | .store t cls key rest =>
    match C.threads t with
    | .idle => { C with threads := Function.update C.threads t (.check cls key rest) }
    | _ => C
  | .getClasses t module =>
    match C.threads t with
    | .idle => { C with threads := Function.update C.threads t (.iter module C.dico.length 0 []) }
    | _ => C
  | .advance t =>
    match C.threads t with
    | .idle => C
    | .check cls key rest =>
      if (C.dico.lookup key).isSome then
        { C with threads := Function.update C.threads t .idle,
                 log := C.log ++ [.stored t cls (.error .assertionError)] }
      else { C with threads := Function.update C.threads t (.assign cls key rest) }
    | .assign cls key rest =>
      match rest with
      | key' :: rest => { C with dico := dictSet C.dico key cls,
                                 threads := Function.update C.threads t (.check cls key' rest) }
      | [] => { dico := dictSet C.dico key cls, threads := Function.update C.threads t .idle,
                log := C.log ++ [.stored t cls (.ok ())] }
    | .iter module size pos classes =>
      if C.dico.length ≠ size then
        { C with threads := Function.update C.threads t .idle,
                 log := C.log ++ [.classes t module none C.dico] }
      else
        match C.dico[pos]? with
        | none => { C with threads := Function.update C.threads t .idle,
                           log := C.log ++ [.classes t module (some classes) C.dico] }
        | some (key, cls) =>
          { C with threads := Function.update C.threads t (.iter module size (pos + 1)
              (if cls ∉ classes.map Prod.snd ∧ moduleCheck h module cls then classes ++ [(key, cls)]
               else classes)) }
  | .interrupt t => { C with threads := Function.update C.threads t .idle }

/-- What a schedule leads to. Callers of `utils/__init__.py` 41-77. -/
def rschedule (h : Heap) (d : Dict) (acts : List RAct) : RConfig := acts.foldl (ract h) (RConfig.init d)

end Registry

end QMat
