import Mathlib.Algebra.Order.Field.Basic
import Verif.Model.Solvers

/-!
# Model of `physical_systems/mechanical_loads`

The initial value code of `MechanicalLoad` is modelled in `GEM.Init`, the sharing of default dictionaries in
`GEM.Sharing`.
-/

namespace GEM.Load

variable {K : Type*} [Field K] [LinearOrder K]

/-- `sign = 1 if omega > 0 else -1 if omega < 0 else 0`
(/repo/src/gym_electric_motor/physical_systems/mechanical_loads/polynomial_static_load.py:89, 104). -/
def sign (omega : K) : K := if 0 < omega then 1 else if omega < 0 then -1 else 0

/-- Attributes of a `PolynomialStaticLoad` (polynomial_static_load.py:68-85). -/
structure Poly (K : Type*) where
  a : K
  b : K
  c : K
  jTotal : K
  tauDecay : K
  omegaLim : K
  linearFactor : K

/-- `__init__` (polynomial_static_load.py:68-85). `tau_decay` is a class attribute (line 49). -/
def Poly.new (a b c jLoad tauDecay : K) : Poly K :=
  ⟨a, b, c, jLoad, tauDecay, a / jLoad * tauDecay, jLoad / tauDecay⟩

/-- `set_j_rotor` (polynomial_static_load.py:62-66 and mechanical_load.py:188-193). -/
def Poly.setJRotor (l : Poly K) (j : K) : Poly K :=
  let jt := l.jTotal + j
  { l with jTotal := jt, linearFactor := jt / l.tauDecay, omegaLim := l.a / jt * l.tauDecay }

/-- `_static_load` (polynomial_static_load.py:87-92). -/
def Poly.staticLoad (l : Poly K) (omega : K) : K :=
  let s := sign omega
  let a := if l.omegaLim < |omega| then s * l.a else l.linearFactor * omega
  s * l.c * omega ^ 2 + l.b * omega + a

/-- `mechanical_ode` (polynomial_static_load.py:94-99); the returned array has the single entry `d omega / dt`. -/
def Poly.mechanicalOde (l : Poly K) (_t omega torque : K) : K := (torque - l.staticLoad omega) / l.jTotal

/-- `mechanical_jacobian` (polynomial_static_load.py:101-107): derivatives over omega and over the torque. -/
def Poly.mechanicalJacobian (l : Poly K) (_t omega _torque : K) : K × K :=
  let s := sign omega
  let a := if l.a * l.tauDecay / l.jTotal < |omega| then 0 else l.jTotal / l.tauDecay
  ((-l.b - 2 * s * l.c * omega - a) / l.jTotal, 1 / l.jTotal)

/-- `ConstantSpeedLoad.mechanical_ode` (constant_speed_load.py:37, 40-42). -/
def constOde (_t _omega _torque : K) : K := 0

/-- `ConstantSpeedLoad.mechanical_jacobian` (constant_speed_load.py:38, 44-46). -/
def constJacobian (_t _omega _torque : K) : K × K := (0, 0)

/-- `ExternalSpeedLoad.mechanical_ode` (external_speed_load.py:62-68); `profile` is the user's `speed_profile` with its
keyword arguments. -/
def externalOde (profile : K → K) (tau : K) (t omega _torque : K) : K := 1 / tau * (profile (t + tau) - omega)

/-- `ExternalSpeedLoad.reset` (external_speed_load.py:60, 75-77). -/
def externalReset (profile : K → K) : K := profile 0

/-- Attributes that an `OrnsteinUhlenbeckLoad` object has got so far while it is constructed; `none`: the name is not
bound yet, reading it raises `AttributeError`. -/
structure OU (K : Type*) where
  omegaRange : Option (K × K) := none
  omega : Option K := none
  theta : Option K := none
  mu : Option K := none
  tau : Option K := none
  sigma : Option K := none

/-- `OrnsteinUhlenbeckLoad.__init__` (ornstein_uhlenbeck_load.py:11-27), statement by statement; the base class
constructor (line 21) sets none of these attributes and `OrnsteinUhlenbeckLoad`/`MechanicalLoad`/`RandomComponent` have no
class attribute `_omega_range`.  `draw lo hi` is the value of `np.random.uniform`. -/
def OU.new (mu sigma theta tau : K) (omegaRange : K × K) (draw : K → K → K) : Except Err (OU K) :=
  let s0 : OU K := {}
  match s0.omegaRange with
  | none => .error .attribute
  | some r =>
    let s1 := { s0 with omega := some (draw r.1 r.2) }
    .ok { s1 with theta := some theta, mu := some mu, tau := some tau, sigma := some sigma,
                  omegaRange := some omegaRange }

/-- `OrnsteinUhlenbeckLoad.mechanical_ode` (ornstein_uhlenbeck_load.py:29-35); `root` is `np.sqrt(tau)` and `noise` the
standard normal sample. -/
def ouOde (theta mu sigma tau root : K) (range : K × K) (omega noise : K) : K :=
  let maxDiff := (range.2 - omega) / tau
  let minDiff := (range.1 - omega) / tau
  let diff := theta * (mu - omega) * tau + sigma * root * noise
  clip diff minDiff maxDiff

end GEM.Load
