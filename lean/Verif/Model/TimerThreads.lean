import Verif.Model.Timer

/-!
# Model of one `Timer` object used by several threads (`qmat/utils/__init__.py` 109-145)

The statements of `start` and `stop` are split at every call of the clock and every access to an attribute that threads
share.  Each access is one step; between two steps of a thread other threads may do any number of steps, and
an exception from outside (`KeyboardInterrupt`, a killed thread) may end a call between any two steps.  `scale` is set
in `__init__` only.
-/

namespace QMat

/-- The calls: `start` (also by `__enter__`) and `stop` (also by `__exit__`). `utils/__init__.py` 132-145. -/
inductive TmOp
  | start
  | stop

/-- Where a thread is. `utils/__init__.py` 132-139. -/
inductive TmPc
  | idle
  /-- `utils/__init__.py` 134: about to call `time()`. -/
  | startClock
  /-- `utils/__init__.py` 134: about to assign `self.tStart`. -/
  | startStore (now : ℝ)
  /-- `utils/__init__.py` 137: about to call `time()`. -/
  | stopClock
  /-- `utils/__init__.py` 137: about to load `self.tStart`. -/
  | stopLoad (now : ℝ)
  /-- `utils/__init__.py` 137: about to assign `self.tWall`. -/
  | stopStore (d : ℝ)
  /-- `utils/__init__.py` 138: about to load `self.tWall` and to divide it. -/
  | stopReload
  /-- `utils/__init__.py` 138: about to assign `self.tWall`. -/
  | stopScale (w : ℝ)
  /-- `utils/__init__.py` 139: about to load `self.tWall`, which is printed. -/
  | stopReport

/-- What is recorded: a reading of the clock in a call, and a `stop` that ended, with the time that was
printed or the exception. Callers of `utils/__init__.py` 132-139. -/
inductive TmEvent
  | clock (t : ℕ) (op : TmOp) (now : ℝ)
  | stopped (t : ℕ) (r : PyResult ℝ)

/-- The attributes of the object, the threads, and the record. `utils/__init__.py` 127-139. -/
structure TmConfig where
  tStart : Option ℝ
  tWall : Option ℝ
  threads : ℕ → TmPc
  log : List TmEvent

/-- A new object, all threads idle. `utils/__init__.py` 127-130. -/
def TmConfig.init : TmConfig := ⟨none, none, fun _ => .idle, []⟩

/-- What the scheduler does: a thread begins a call, a thread makes a step (`now`: what the clock shows if the step reads
it), an exception ends the call of a thread. Callers of `utils/__init__.py` 132-139. -/
inductive TmAct
  | begin (t : ℕ) (op : TmOp)
  | advance (t : ℕ) (now : ℝ)
  | interrupt (t : ℕ)

/-- A thread goes on at another place. `utils/__init__.py` 132-139. -/
def TmConfig.goto (c : TmConfig) (t : ℕ) (pc : TmPc) : TmConfig := { c with threads := Function.update c.threads t pc }

/-- One event is recorded. Callers of `utils/__init__.py` 132-139. -/
def TmConfig.note (c : TmConfig) (e : TmEvent) : TmConfig := { c with log := c.log ++ [e] }

/-- One step of a thread. `utils/__init__.py` 132-139. -/
noncomputable def TmConfig.advance (scale : ℝ) (c : TmConfig) (t : ℕ) (now : ℝ) : TmConfig :=
  match c.threads t with
  | .idle => c
  | .startClock => (c.goto t (.startStore now)).note (.clock t .start now)
  | .startStore s => { c.goto t .idle with tStart := some s }
  | .stopClock => (c.goto t (.stopLoad now)).note (.clock t .stop now)
  | .stopLoad n =>
    match c.tStart with
    | none => (c.goto t .idle).note (.stopped t (.error .attributeError))
    | some s => c.goto t (.stopStore (n - s))
  | .stopStore d => { c.goto t .stopReload with tWall := some d }
  | .stopReload =>
    match c.tWall with
    | none => (c.goto t .idle).note (.stopped t (.error .attributeError))
    | some w =>
      if scale = 0 then (c.goto t .idle).note (.stopped t (.error .zeroDivisionError))
      else c.goto t (.stopScale (w / scale))
  | .stopScale w => { c.goto t .stopReport with tWall := some w }
  | .stopReport =>
    match c.tWall with
    | none => (c.goto t .idle).note (.stopped t (.error .attributeError))
    | some w => (c.goto t .idle).note (.stopped t (.ok w))

/-- One action of the scheduler; a thread begins a call only when it is idle. Callers of `utils/__init__.py` 132-145. -/
noncomputable def TmConfig.act (scale : ℝ) (c : TmConfig) : TmAct → TmConfig
  | .begin t op =>
    match c.threads t with
    | .idle => c.goto t (match op with | .start => .startClock | .stop => .stopClock)
    | _ => c
  | .advance t now => c.advance scale t now
  | .interrupt t => c.goto t .idle

/-- The state after a schedule. Callers of `utils/__init__.py` 132-145. -/
noncomputable def tmSchedule (scale : ℝ) (acts : List TmAct) : TmConfig := acts.foldl (TmConfig.act scale) .init

end QMat
