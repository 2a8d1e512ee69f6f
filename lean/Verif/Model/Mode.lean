import Verif.Model.Solver

/-! # Modes (hylaa/hybrid_automaton.py:16-258), the data the LP utilities read -/

namespace Hylaa

/-- `LinearConstraint`: `csr * x <= rhs`, one row of width `ncols`.
hybrid_automaton.py:16-28 -/
structure LinCon (K : Type) where
  ncols : ℕ
  row : SRow K
  rhs : K

/-- Inputs of a mode: `b_csr`, `u_constraints_csc`, `u_constraints_rhs`.
hybrid_automaton.py:79-100, set together by `set_inputs` (208-258). -/
structure Inputs (K : Type) where
  b : Csr K
  uCsc : Csc K
  uRhs : List K

/-- `Mode`.  hybrid_automaton.py:71-100.  `a = none`: error mode.  The outgoing transitions and the
time-elapse object are modelled separately. -/
structure Mode (K : Type) where
  name : String
  id : ℕ
  a : Option (Csr K) := none
  inputs : Option (Inputs K) := none
  inv : List (LinCon K) := []

variable {K : Type}

/-- `is_error`  hybrid_automaton.py:102-105 -/
def Mode.isError (m : Mode K) : Bool := m.a.isNone

/-- `mode.a_csr.shape[0]` (0 for an error mode, where the code would fail). -/
def Mode.dims (m : Mode K) : ℕ := match m.a with | some a => a.rows.length | none => 0

/-- Raise `AssertionError` unless `p`. -/
def assert (p : Prop) [Decidable p] : Except Err Unit :=
  if p then .ok () else .error .assertion

/-- Raise a non-assertion exception (IndexError, ValueError, TypeError, RuntimeError) unless `p`. -/
def need (p : Prop) [Decidable p] : Except Err Unit :=
  if p then .ok () else .error .runtime

/-- Read an attribute that may be `None` (AttributeError/TypeError otherwise). -/
def needSome {α : Type} (o : Option α) : Except Err α :=
  match o with
  | some a => .ok a
  | none => .error .runtime

end Hylaa
