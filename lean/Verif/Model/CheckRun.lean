import Verif.Model.Trace

/-!
# `check_trace.check`

The whole comparison of a simulation with a predicted value.  `sol u x ts` is `odeint` with the input `u`:
one state per time.  Printing and the wall clock are left out.
-/

namespace Hylaa

section
variable {K I : Type} [Field K] [LinearOrder K]

/-- A Python number used as a count: whole, or a `float`. -/
inductive PyNum (K : Type)
  | int (n : ℕ)
  | float (x : K)

/-- `approx_samples / max(1, len(inputs))`, a `float` in Python 3, replaced by the whole number 1 if it
is smaller.  check_trace.py:90-95 -/
def samplesPerInput (approx : K) (n : ℕ) : PyNum K :=
  if approx / (max 1 n : ℕ) < 1 then .int 1 else .float (approx / (max 1 n : ℕ))

/-- `np.linspace(0, T, num=1 + samples * n)`: NumPy (since 1.18) raises TypeError for a `float` count.
check_trace.py:123, 160-168 -/
def PyNum.times (T : K) (n : ℕ) : PyNum K → Except Err (List K)
  | .int m => .ok (linspace T (1 + m * n))
  | .float _ => .error .runtime

/-- The loop over the inputs: states and times after the start.  check_trace.py:101-132, 160-173 -/
def checkLoop (sol : I → List K → List K → List (List K)) (step : K) (samples : PyNum K) :
    List (ℕ × ℕ × I) → List K → Except Err (List (List K) × List K)
  | [], _ => .ok ([], [])
  | g :: gs, x => do
    let ts ← samples.times (step * (g.2.1 : K)) g.2.1
    let states := (sol g.2.2 x ts).tail
    assert (states.length = ts.tail.length)
    let r ← checkLoop sol step samples gs (states.getLast?.getD x)
    return (states ++ r.1, (ts.tail.map fun t => t + (g.1 : K) * step) ++ r.2)

/-- What `check` returns: `(sim_states, sim_times, CheckTraceData)`.  check_trace.py:22-30, 155 -/
structure CheckOut (K : Type) where
  states : List (List K)
  times : List K
  simTime : K
  absError : K
  relError : K

/-- `np.dot` of two lists of one length -/
def dotVec (x y : List K) : K := ((x.zip y).map fun p => p.1 * p.2).sum

/-- `check` with a list of inputs; `round` is `int(round(·))`, `tiny` is `1e-9`, `dims` the size of the
square `a_matrix`.  check_trace.py:60-155 -/
def check (close : I → I → Bool) (sol : I → List K → List K → List (List K)) (round : K → ℤ) (tiny : K)
    (dims : ℕ) (step maxTime : K) (start : List K) (inputs : List I) (normal : List K) (endVal approx : K) :
    Except Err (CheckOut K) := do
  assert (0 < dims)
  assert (start.length = dims)
  need (step ≠ 0)
  let total := round (maxTime / step)
  assert (|(total : K) * step - maxTime| < tiny)
  assert ((inputs.length : ℤ) ≤ total)
  let gs ← checkTrace close total.toNat inputs
  let r ← checkLoop sol step (samplesPerInput approx inputs.length) gs start
  let last := r.1.getLast?.getD start
  need (last.length = normal.length)
  let simVal := dotVec last normal
  let err := |simVal - endVal|
  return ⟨start :: r.1, 0 :: r.2, maxTime, err, if |simVal| = 0 then 0 else err / |simVal|⟩

end

end Hylaa
