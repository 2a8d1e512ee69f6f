import Verif.Model.StateSet
import Verif.Spec.Ops

/-!
# Discrete-time evolution inside one mode

Time advances in whole steps; a state is `E x + N u` after one step, with `u` in the input set and
the state before the step inside the invariant.
-/

namespace Hylaa.Spec
variable {K : Type} [Field K] [LinearOrder K]

/-- The invariant of a mode as a set. -/
def InvHolds (m : Mode K) (x : ℕ → K) : Prop := ∀ lc ∈ m.inv, dot lc.row x ≤ lc.rhs

/-- The guard of a transition as a set (`False` while no guard is assigned). -/
def GuardHolds (t : Tr K) (x : ℕ → K) : Prop := ∃ g, t.guard = some g ∧ g.1.le x g.2

/-- Every invariant condition holds up to `ε`. -/
def InvEps (ε : K) (m : Mode K) (x : ℕ → K) : Prop := ∀ lc ∈ m.inv, dot lc.row x ≤ lc.rhs + ε

/-- Admissible inputs (anything, if the mode has none). -/
def Admissible (m : Mode K) (u : ℕ → K) : Prop := ∀ inp, m.inputs = some inp → InputSet inp u

/-- Effect of input `u` in one step. -/
def inputPart (d : Dyn K) (u : ℕ → K) (i : ℕ) : K :=
  match d.nmat with
  | none => 0
  | some N => mulV N.nc N.e u i

/-- One step of the dynamics. -/
def OneStep (m : Mode K) (d : Dyn K) (x x' : ℕ → K) : Prop :=
  ∃ u, Admissible m u ∧ ∀ i < d.dims, x' i = mulV d.dims (d.ex 1).e x i + inputPart d u i

/-- `k` steps, every state before the last one inside the invariant (up to `ε`). -/
inductive Flow (ε : K) (m : Mode K) (d : Dyn K) : ℕ → (ℕ → K) → (ℕ → K) → Prop
  | zero {x z} : EqOn d.dims z x → Flow ε m d 0 x z
  | step {k x y z} : Flow ε m d k x y → InvEps ε m y → OneStep m d y z → Flow ε m d (k + 1) x z

end Hylaa.Spec
