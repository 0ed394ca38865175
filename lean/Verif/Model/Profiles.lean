import Mathlib.Analysis.SpecialFunctions.Trigonometric.Basic
import Mathlib.Algebra.Order.Floor.Ring
import Mathlib.Algebra.Order.Archimedean.Real.Basic

/-!
# The speed profiles of `examples/environment_features/external_speed_profile.py`

Exact arithmetic.  `scipy.signal.sawtooth` is not part of the repository; it is modelled as documented, for a `width` between 0 and 1: on the
part `width` of the period it rises from -1 to 1, on the rest it falls back to -1.
-/

namespace GEM.Profiles

noncomputable section

/-- `np.mod` with a positive divisor -/
def fmod (x y : ℝ) : ℝ := x - y * ⌊x / y⌋

/-- `scipy.signal.sawtooth(t, width)`, `0 < width < 1` -/
def sawtooth (t width : ℝ) : ℝ :=
  let m := fmod t (2 * Real.pi)
  if m < width * 2 * Real.pi then m / (Real.pi * width) - 1 else (Real.pi * (width + 1) - m) / (Real.pi * (1 - width))

/-- `sinus_lambda` (external_speed_profile.py:44-47) -/
def sinus (t frequency amplitude bias : ℝ) : ℝ := amplitude * Real.sin (2 * Real.pi * frequency * t) + bias

/-- `constant_lambda` (external_speed_profile.py:49) -/
def constant (_t value : ℝ) : ℝ := value

/-- `triangle_lambda` (external_speed_profile.py:51-55) -/
def triangle (t amplitude frequency bias : ℝ) : ℝ := amplitude * sawtooth (2 * Real.pi * frequency * t) (1 / 2) + bias

/-- `saw_lambda` (external_speed_profile.py:57-61) -/
def saw (t amplitude frequency bias : ℝ) : ℝ := amplitude * sawtooth (2 * Real.pi * frequency * t) (9 / 10) + bias

end

end GEM.Profiles
