import Verif.Model.Core
import Verif.Model.Build

/-! # Preparing the automaton (hylaa/core.py:325-338) -/

namespace Hylaa
variable {K : Type} [Field K] [LinearOrder K]

/-- `Core.setup_ha`  core.py:325-338: time-triggered transitions (`tt`: `optimize_tt_transitions`, `eps`:
`step_size / num_steps / 1000`), guard strengthening (`str`: `do_guard_strengthening`, `tol`: `1e-13`), checks.
(`init_time_elapse` is `Env.dyn`.) -/
def HA.setupHa (tt str : Bool) (eps tol : K) (ha : HA K) : Except Err (HA K) := do
  let ha ← (if tt = true then ha.detectTt eps else .ok ha)
  let ha ← (if str = true then ha.strengthen tol else .ok ha)
  ha.checkTransitions
  return ha

end Hylaa
