import Verif.Model.Timer
import Mathlib.Tactic.NormNum

/-!
# C69: `Timer`
-/

namespace QMat

/-- The clock of the last `start` of a history. -/
def lastStart : List TimerOp → Option ℝ
  | [] => none
  | .start now :: rest => (lastStart rest).or (some now)
  | .stop _ :: rest => lastStart rest

theorem Timer.stop_scale (t : Timer) (now : ℝ) : (t.stop now).1.scale = t.scale ∧ (t.stop now).1.tStart = t.tStart := by
  unfold Timer.stop
  rcases h : t.tStart with _ | s
  · exact ⟨rfl, h⟩
  · simp only
    split_ifs <;> exact ⟨rfl, rfl⟩

theorem Timer.run_inv (t : Timer) (ops : List TimerOp) :
    (t.run ops).scale = t.scale ∧ (t.run ops).tStart = (lastStart ops).or t.tStart := by
  induction ops generalizing t with
  | nil => exact ⟨rfl, rfl⟩
  | cons op ops ih =>
    obtain ⟨h1, h2⟩ := ih (t.step op)
    have e : t.run (op :: ops) = (t.step op).run ops := rfl
    rw [e, h1, h2]
    cases op with
    | start now =>
      refine ⟨rfl, ?_⟩
      simp only [lastStart, step, start]
      rcases lastStart ops <;> rfl
    | stop now => exact ⟨(t.stop_scale now).1, by rw [show (t.step (.stop now)).tStart = t.tStart from (t.stop_scale now).2]; rfl⟩

/-- C69: after any calls on a new timer, `stop` sets `tWall` to the time since the last `start` over `scale`. -/
theorem C69_tWall (scale : ℝ) (hs : scale ≠ 0) (ops : List TimerOp) (s now : ℝ)
    (hl : lastStart ops = some s) :
    ((Timer.run { scale := scale } ops).stop now).2 = .ok () ∧
    ((Timer.run { scale := scale } ops).stop now).1.tWall = some ((now - s) / scale) := by
  obtain ⟨h1, h2⟩ := Timer.run_inv { scale := scale } ops
  rw [hl] at h2
  unfold Timer.stop
  rw [h2]
  simp only [Option.some_or]
  rw [h1, if_neg hs]
  exact ⟨rfl, rfl⟩

/-- C69: `tWall` keeps the time of the last `stop` however often the timer is started afterwards. -/
theorem C69_kept (scale : ℝ) (hs : scale ≠ 0) (ops : List TimerOp) (s now : ℝ) (hl : lastStart ops = some s)
    (starts : List ℝ) :
    (Timer.run { scale := scale } (ops ++ .stop now :: starts.map .start)).tWall = some ((now - s) / scale) := by
  have hkeep : ∀ (l : List ℝ) (t : Timer), (t.run (l.map .start)).tWall = t.tWall := by
    intro l
    induction l with
    | nil => intro t; rfl
    | cons a l ih => intro t; exact ih (t.start a)
  have e : Timer.run { scale := scale } (ops ++ .stop now :: starts.map .start) =
      (((Timer.run { scale := scale } ops).stop now).1).run (starts.map .start) := by
    simp only [Timer.run, List.foldl_append, List.foldl_cons]
    rfl
  rw [e, hkeep]
  exact (C69_tWall scale hs ops s now hl).2

/-- Instance: two more starts after the stop. -/
example : (Timer.run { scale := 2 } ([.start 1] ++ .stop 5 :: [6, 7].map .start)).tWall = some ((5 - 1) / 2) :=
  C69_kept 2 two_ne_zero [.start 1] 1 5 rfl [6, 7]

/-- C69: `stop` without a `start` is an `AttributeError` and sets nothing; a scale of zero is a
`ZeroDivisionError`, which leaves the time without a scale in `tWall`. -/
theorem C69_errors (scale : ℝ) (ops : List TimerOp) (now : ℝ) :
    (lastStart ops = none → ((Timer.run { scale := scale } ops).stop now).2 = .error .attributeError ∧
      ((Timer.run { scale := scale } ops).stop now).1 = Timer.run { scale := scale } ops) ∧
    ∀ s, lastStart ops = some s → scale = 0 →
      ((Timer.run { scale := scale } ops).stop now).2 = .error .zeroDivisionError ∧
      ((Timer.run { scale := scale } ops).stop now).1.tWall = some (now - s) := by
  obtain ⟨h1, h2⟩ := Timer.run_inv { scale := scale } ops
  refine ⟨fun hl => ?_, fun s hl hs => ?_⟩
  · rw [hl] at h2
    unfold Timer.stop
    rw [h2]
    exact ⟨rfl, rfl⟩
  · rw [hl] at h2
    unfold Timer.stop
    rw [h2]
    simp only [Option.some_or]
    rw [h1, if_pos hs]
    exact ⟨rfl, rfl⟩

/-- C69: `with timer: body`: the time of the block over `scale`, also when the body raises, and what the body
raises is raised; the timer may have been used before, and may be stopped in the block. -/
theorem C69_with (t : Timer) (hs : t.scale ≠ 0) (t0 t1 : ℝ) (body : List TimerOp)
    (hb : lastStart body = none) (result : PyResult Unit) :
    (t.withBlock t0 t1 body result).1.tWall = some ((t1 - t0) / t.scale) ∧
    (t.withBlock t0 t1 body result).2 = result := by
  obtain ⟨h1, h2⟩ := Timer.run_inv (t.start t0) body
  rw [hb] at h2
  have e : ((t.start t0).run body).stop t1 = ({ scale := t.scale, tStart := some t0, tWall := some ((t1 - t0) / t.scale) }, .ok ()) := by
    generalize (t.start t0).run body = u at h1 h2
    obtain ⟨us, ut, uw⟩ := u
    simp only [Timer.start] at h1 h2
    subst h1 h2
    simp [Timer.stop, hs]
  unfold Timer.withBlock
  rw [e]
  exact ⟨rfl, rfl⟩

/-- Instance: three seconds. -/
example : (Timer.withBlock { scale := 1 } 2 5 [.stop 3] (.ok ())).1.tWall = some ((5 - 2) / 1) :=
  (C69_with { scale := 1 } one_ne_zero 2 5 [.stop 3] rfl (.ok ())).1

/-- C69: the reported time is not negative when the clock does not go back and the scale is positive. -/
theorem C69_nonneg (t : Timer) (hs : 0 < t.scale) (t0 t1 : ℝ) (h01 : t0 ≤ t1) (body : List TimerOp)
    (hb : lastStart body = none) (result : PyResult Unit) :
    ∃ w, (t.withBlock t0 t1 body result).1.tWall = some w ∧ 0 ≤ w :=
  ⟨_, (C69_with t hs.ne' t0 t1 body hb result).1, div_nonneg (sub_nonneg.mpr h01) hs.le⟩

/-- Instance: a body that reads the clock, in milliseconds. -/
example : ∃ w, (Timer.withBlock { scale := 1 / 1000 } 2 5 [.stop 3] (.ok ())).1.tWall = some w ∧ 0 ≤ w :=
  C69_nonneg { scale := 1 / 1000 } (by norm_num) 2 5 (by norm_num) [.stop 3] rfl (.ok ())

/-- C69, finding: a timer that is used again inside its own block reports the time since the inner start. -/
theorem C69_nested_fails : ∃ (t : Timer) (t0 t1 : ℝ) (body : List TimerOp), t.scale = 1 ∧
    (t.withBlock t0 t1 body (.ok ())).1.tWall ≠ some (t1 - t0) := by
  refine ⟨{}, 0, 10, [.start 4, .stop 6], rfl, ?_⟩
  norm_num [Timer.withBlock, Timer.run, Timer.step, Timer.start, Timer.stop]

/-- C69, instance. -/
example : ((Timer.run { scale := 2 } [.stop 0, .start 1, .stop 4, .start 6]).stop 16).1.tWall = some 5 := by
  have := (C69_tWall 2 (by norm_num) [.stop 0, .start 1, .stop 4, .start 6] 6 16 rfl).2
  rw [this]
  exact congrArg some (by norm_num)

end QMat
