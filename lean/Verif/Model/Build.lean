import Verif.Model.Automaton

/-!
# Sequences of automaton-building calls

A user builds an automaton by a sequence of calls; a call that raises leaves the automaton as it was
(every check of these methods comes before the first assignment) and the script may go on.
-/

namespace Hylaa
variable {K : Type} [Field K] [LinearOrder K]

/-- Update one mode through a method that may raise. -/
def HA.modMode (ha : HA K) (i : ℕ) (f : Mode K → Except Err (Mode K)) : Except Err (HA K) := do
  let m ← needSome ha.modes[i]?
  let m' ← f m
  return { ha with modes := ha.modes.set i m' }

/-- Update one transition through a method that may raise. -/
def HA.modTr (ha : HA K) (k : ℕ) (f : Tr K → Except Err (Tr K)) : Except Err (HA K) := do
  let t ← needSome ha.trans[k]?
  let t' ← f t
  return { ha with trans := ha.trans.set k t' }

/-- The public building methods of `HybridAutomaton`, `Mode` and `Transition`
(hybrid_automaton.py:119-252, 325-424, 480-495). -/
inductive BuildOp (K : Type)
  | newMode (name : String)
  | newTransition (src dst : ℕ) (name : Option String)
  | setDynamics (m : ℕ) (a : Csr K)
  | setInvariant (m : ℕ) (c : Csr K) (rhs : List K)
  | setInputs (m : ℕ) (b u : Csr K) (rhs : List K) (allowConst : Bool)
  | setGuard (t : ℕ) (c : Csr K) (rhs : List K)
  | setGuardTrue (t : ℕ)
  | setReset (t : ℕ) (reset mink minkC : Option (Csr K)) (minkRhs : Option (List K))

/-- One call.  `tol` is the `1e-9` of `_check_inputs`.  hybrid_automaton.py:119-252, 325-424, 480-495 -/
def HA.apply (S : Solver K) (tol : K) (ha : HA K) : BuildOp K → Except Err (HA K)
  | .newMode n => ha.newMode n
  | .newTransition s d n => ha.newTransition s d n
  | .setDynamics m a => ha.modMode m fun m => m.setDynamics a
  | .setInvariant m c rhs => ha.modMode m fun m => m.setInvariant S c rhs
  | .setInputs m b u rhs al => ha.modMode m fun m => m.setInputs S tol b u rhs al
  | .setGuard t c rhs => ha.modTr t fun t => t.setGuard S ha c rhs
  | .setGuardTrue t => ha.modTr t fun t => t.setGuardTrue S ha
  | .setReset t r m c d => ha.modTr t fun t => t.setReset S ha r m c d

/-- A call whose exception (if any) is caught by the caller.  hybrid_automaton.py:469-495 -/
def HA.attempt (S : Solver K) (tol : K) (ha : HA K) (op : BuildOp K) : HA K :=
  match ha.apply S tol op with
  | .ok ha' => ha'
  | .error _ => ha

/-- A whole script on a fresh `HybridAutomaton()`.  hybrid_automaton.py:469-478 -/
def HA.build (S : Solver K) (tol : K) (ops : List (BuildOp K)) : HA K :=
  ops.foldl (fun ha op => ha.attempt S tol op) {}

end Hylaa
