import Verif.Model.Py

/-!
# Model of `Timer` (`qmat/utils/__init__.py` 109-145)

The clock is an argument: `now` is what `time()` returns in the call.  Printing is not modelled.
-/

namespace QMat

/-- `utils/__init__.py` 127-130, `__init__`: the attributes; `tStart`, `tWall` do not exist at first. -/
structure Timer where
  scale : ℝ := 1
  tStart : Option ℝ := none
  tWall : Option ℝ := none

/-- `utils/__init__.py` 132-134, `start()`. -/
def Timer.start (t : Timer) (now : ℝ) : Timer := { t with tStart := some now }

/-- `utils/__init__.py` 136-139, `stop()`: the state after the call and the outcome. -/
noncomputable def Timer.stop (t : Timer) (now : ℝ) : Timer × PyResult Unit :=
  match t.tStart with
  | none => (t, .error .attributeError)
  | some s =>
    if t.scale = 0 then ({ t with tWall := some (now - s) }, .error .zeroDivisionError)
    else ({ t with tWall := some ((now - s) / t.scale) }, .ok ())

/-- A call on a timer. `utils/__init__.py` 132-139. -/
inductive TimerOp
  | start (now : ℝ)
  | stop (now : ℝ)

/-- The state after a call, whether it raised or not. `utils/__init__.py` 132-139. -/
noncomputable def Timer.step (t : Timer) : TimerOp → Timer
  | .start now => t.start now
  | .stop now => (t.stop now).1

/-- The state after a history of calls; the caller catches what `stop` raises.
`utils/__init__.py` 132-139. -/
noncomputable def Timer.run (t : Timer) (ops : List TimerOp) : Timer := ops.foldl Timer.step t

/-- `with timer: body` (`utils/__init__.py` 141-145): the clock at entry and at exit, and a body that makes
calls on the same timer and then returns or raises.  `__exit__` returns `None`, so what the body raises
goes on, unless `stop` raises itself. -/
noncomputable def Timer.withBlock (t : Timer) (t0 t1 : ℝ) (body : List TimerOp) (result : PyResult Unit) :
    Timer × PyResult Unit :=
  match ((t.start t0).run body).stop t1 with
  | (t, .error e) => (t, .error e)
  | (t, .ok ()) => (t, result)

end QMat
