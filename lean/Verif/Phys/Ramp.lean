import Mathlib.Analysis.SpecialFunctions.Pow.Real

/-!
# Temperature and pressure ramps

Models `TemperatureRamp` and `PressureRamp` of `ipi/engine/motion/ramp.py`; the two classes are the
same code writing to `ensemble.temp` and to `ensemble.pext`.
-/

namespace Verif.Ramp

/-- The attributes of a ramp (`ramp.py` 33-48, 85-103), which are also the fields of the restart
file (`inputs/motion/ramp.py`). -/
structure Ramp where
  start : ℝ
  stop : ℝ
  total : ℕ
  current : ℕ
  logscale : Bool

/-- The value written by `step` after `current_step` has been increased to `k` (`ramp.py` 58-68,
113-123).  Real arithmetic; `**` of a negative base, a complex number in python, and the division by
a zero start are not values of this function: the theorems ask for positive values on a logarithmic
scale. -/
noncomputable def value (r : Ramp) (k : ℕ) : ℝ :=
  if r.total ≤ k then r.stop
  else if r.logscale then r.start * (r.stop / r.start) ^ ((k : ℝ) * 1 / (r.total : ℝ))
  else r.start + k * (r.stop - r.start) / (r.total : ℝ)

/-- `TemperatureRamp.step`, `PressureRamp.step` (`ramp.py` 53-68, 108-123): the new state and the
value given to the ensemble. -/
noncomputable def step (r : Ramp) : Ramp × ℝ :=
  ({ r with current := r.current + 1 }, value r (r.current + 1))

/-- `n` steps: the state and the values written, in order. -/
noncomputable def run : ℕ → Ramp → Ramp × List ℝ
  | 0, r => (r, [])
  | n + 1, r => ((run n (step r).1).1, (step r).2 :: (run n (step r).1).2)

end Verif.Ramp
