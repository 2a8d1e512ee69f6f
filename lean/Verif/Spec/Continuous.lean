import Verif.Spec.Run
import Verif.Spec.Ode
import Mathlib.Algebra.Order.Floor.Semiring

/-!
# Runs of a hybrid automaton in continuous time

The variables follow `x' = A x + B u` with an input that is constant during every step of length `τ`;
invariants, guards and transitions are looked at when a step ends.
-/

namespace Hylaa.Spec

/-- The input term of `x' = A x + B u`, if `u l` is the input during step `l`. -/
noncomputable def inputTerm (m : Mode ℝ) (τ : ℝ) (u : ℕ → ℕ → ℝ) (t : ℝ) (i : ℕ) : ℝ :=
  match m.inputs with
  | none => 0
  | some inp => dot (inp.b.row i) (u ⌊t / τ⌋₊)

/-- In mode `m` with matrix `a`, a trajectory leads from `x` to `z` in `k` steps; when a step begins the
invariant holds (up to `ε`). -/
def Dwells (ε : ℝ) (m : Mode ℝ) (a : Csr ℝ) (τ : ℝ) (k : ℕ) (x z : ℕ → ℝ) : Prop :=
  ∃ (w : ℝ → ℕ → ℝ) (u : ℕ → ℕ → ℝ), (∀ l < k, Admissible m (u l)) ∧
    Solves a (inputTerm m τ u) (k * τ) w ∧ EqOn a.nrows (w 0) x ∧ EqOn a.nrows z (w (k * τ)) ∧
    ∀ l < k, InvEps ε m (w (l * τ))

/-- A hybrid automaton, the step size, the option `process_urgent_guards`, the time bound in steps, and by
how much invariants may be violated. -/
structure Ct where
  ha : HA ℝ
  τ : ℝ
  urgent : Bool
  bound : ℕ
  slack : ℝ := 0

/-- From mode `i` entered at `x`: dwell `k` steps, then take transition `ti`, entering mode `j` at `y`. -/
def Ct.Jump (H : Ct) (i : ℕ) (x : ℕ → ℝ) (k ti j : ℕ) (y : ℕ → ℝ) : Prop :=
  ∃ m a t z, H.ha.modes[i]? = some m ∧ m.a = some a ∧ Dwells H.slack m a H.τ k x z ∧
    (k = 0 → H.urgent = true ∧ InvEps H.slack m z) ∧ H.ha.trans[ti]? = some t ∧ t.src = i ∧
    GuardHolds t z ∧ ResetTo a.nrows t z y ∧ j = t.dst

/-- Mode `i` can be entered at `x` after `n` steps, starting in `X0` (inside the invariant), within the time
bound. -/
inductive Ct.Reach (H : Ct) (X0 : ℕ → (ℕ → ℝ) → Prop) : ℕ → (ℕ → ℝ) → ℕ → Prop
  | init {i x m} : X0 i x → H.ha.modes[i]? = some m → InvEps H.slack m x → Reach H X0 i x 0
  | jump {i x n k ti j y} : Reach H X0 i x n → H.Jump i x k ti j y → n + k ≤ H.bound →
      Reach H X0 j y (n + k)

/-- No error mode (a mode without dynamics) can be entered. -/
def Ct.Safe (H : Ct) (X0 : ℕ → (ℕ → ℝ) → Prop) : Prop :=
  ∀ i x n m, H.Reach X0 i x n → H.ha.modes[i]? = some m → m.a ≠ none

end Hylaa.Spec
