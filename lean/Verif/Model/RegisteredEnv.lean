import Verif.Model.Registry
import Verif.Model.WrappedEnv

/-!
# The physical systems of the registered environments

The classes of the shunt motor add a `CurrentSumProcessor(("i_a", "i_e"))` behind the wrappers that the user passes
(`envs/gym_dcm/shunt_dc_motor_env/`: cont_tc 186, cont_cc 187, cont_sc 191, finite_tc 185, finite_cc 192, finite_sc 191).  The other classes
pass on the wrappers of the user.
-/

namespace GEM.Registry

open GEM GEM.Assembly GEM.Wrap

variable {σ A : Type}

/-- The physical system of the environment (core.py 266–267), made from the system inside the wrappers of the user.  The limit of a
`CurrentSumProcessor` is the largest one, unless told otherwise (current_sum_processor.py 10). -/
noncomputable def Defaults.wrap (d : Defaults) (p : Plant σ A) : Except Err (Plant σ A) :=
  d.currentSums.foldlM (fun p l => (currentSum l false p.ps).map p.same) p

end GEM.Registry
