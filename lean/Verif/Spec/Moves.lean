import Verif.Model.Mode
import Verif.Spec.Hybrid
import Mathlib.MeasureTheory.Integral.IntervalIntegral.Basic
import Mathlib.Analysis.Calculus.Deriv.Basic

/-!
# Trajectories with time-varying inputs

Unlike `Spec/Continuous` (inputs constant during a step), the input may change at any time.
-/

namespace Hylaa.Spec
open Set MeasureTheory

/-- `B u`, coordinate `i` (zero in a mode without inputs). -/
def inputAt {K : Type} [Field K] (m : Mode K) (u : ℕ → K) (i : ℕ) : K :=
  match m.inputs with
  | none => 0
  | some inp => dot (inp.b.row i) u

/-- During `[0, T]`, `w` follows `x' = A x + B u(t)` with admissible inputs `u(t)`: `u` is integrable, `w` is
continuous and has this derivative except at countably many times. -/
structure Moves (m : Mode ℝ) (a : Csr ℝ) (T : ℝ) (w u : ℝ → ℕ → ℝ) : Prop where
  cont : ∀ i < a.nrows, ContinuousOn (fun t => w t i) (Icc 0 T)
  deriv : ∃ C : Set ℝ, C.Countable ∧ ∀ t ∈ Ioo 0 T \ C, ∀ i < a.nrows,
    HasDerivAt (fun s => w s i) (dot (a.row i) (w t) + inputAt m (u t) i) t
  adm : ∀ t ∈ Icc 0 T, Admissible m (u t)
  int : ∀ inp, m.inputs = some inp → ∀ c < inp.b.ncols, IntervalIntegrable (fun t => u t c) volume 0 T

end Hylaa.Spec
