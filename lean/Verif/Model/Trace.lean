import Verif.Model.Automaton

/-!
# Replaying counterexamples

`odeint` is an oracle that returns one state per requested time.  Points are lists of numbers.
-/

namespace Hylaa
variable {K : Type} [Field K] [LinearOrder K]

/-- `np.linspace(0, T, num=n)` -/
def linspace (T : K) (n : ℕ) : List K := (List.range n).map fun (i : ℕ) => (i : K) * T / ((n : K) - 1)

/-- A point as a vector. -/
def vecOf (l : List K) : ℕ → K := fun i => l.getD i 0

/-- `np.allclose(a, b)` for points -/
def allClose (atol rtol : K) (a b : List K) : Bool :=
  decide (a.length = b.length) && (a.zip b).all fun p => decide (|p.1 - p.2| ≤ atol + rtol * |p.2|)

/-- `CounterExampleSegment` (of a mode without inputs), with the mode and transition objects instead of
their positions  result.py:120-135 -/
structure TraceSeg (K : Type) where
  mode : Mode K
  start : List K
  stop : List K
  steps : ℕ
  tr : Tr K

/-- `csr * x` as a list -/
def Csr.mulList (c : Csr K) (x : List K) : List K := c.rows.map fun r => dot r (vecOf x)

/-- What replaying one segment checks (result.py:222-271); `next` is the start of the next segment.
Returns the states, the times (without offset) and the point after the last reset. -/
def replaySeg (ode : Csr K → List K → List K → List (List K)) (eps atol rtol stepSize : K) (g : TraceSeg K)
    (next : Option (List K)) : Except Err (List (List K) × List K × Option (List K)) := do
  assert (g.mode.inputs.isNone)
  let a ← needSome g.mode.a
  let times := linspace ((g.steps : K) * stepSize) g.steps
  let states := ode a g.start times
  assert (∀ x ∈ states.dropLast, ∀ lc ∈ g.mode.inv, dot lc.row (vecOf x) ≤ lc.rhs + eps)
  let last ← needSome states.getLast?
  assert (allClose atol rtol last g.stop = true)
  let gd ← needSome g.tr.guard
  assert (∀ p ∈ gd.1.rows.zip gd.2, dot p.1 (vecOf last) ≤ p.2 + eps)
  assert (g.tr.mink.isNone)
  (match g.tr.reset with
    | none => .ok (states, times, none)
    | some R => match next with
      | some x => do
        assert (allClose atol rtol (R.mulList last) x = true)
        return (states, times, none)
      | none => .ok (states, times, some (R.mulList last)))

/-- `replay_counterexample`  result.py:210-273; `off` is the last time so far -/
def replayCe (ode : Csr K → List K → List K → List (List K)) (eps atol rtol stepSize off : K) :
    List (TraceSeg K) → Except Err (List (List K) × List K)
  | [] => .ok ([], [])
  | g :: l => do
    let r ← replaySeg ode eps atol rtol stepSize g (l.head?.map fun s => s.start)
    let ts := r.2.1.map fun t => t + off
    let off := ts.getLast?.getD off
    let q ← replayCe ode eps atol rtol stepSize off l
    return (match r.2.2 with
      | none => (r.1 ++ q.1, ts ++ q.2)
      | some x => (r.1 ++ [x] ++ q.1, ts ++ [off] ++ q.2))

/-! ### `check_trace.check` -/

/-- The number of further inputs close to `u` at the front of the list, at most `k`,
check_trace.py:104-111 -/
def runLen {I : Type} (close : I → I → Bool) (u : I) : ℕ → List I → ℕ
  | 0, _ => 0
  | _, [] => 0
  | k + 1, v :: l => if close u v then runLen close u k l + 1 else 0

/-- The groups `(index, num_steps, input)` simulated by `check`, check_trace.py:101-132.  `fuel`
bounds the number of groups. -/
def traceGroups {I : Type} (close : I → I → Bool) (total : ℕ) (inputs : List I) :
    ℕ → ℕ → List (ℕ × ℕ × I)
  | 0, _ => []
  | fuel + 1, index =>
    if index < total then
      match inputs[index]? with
      | none => []
      | some u =>
        let n := runLen close u (min total inputs.length - index - 1) (inputs.drop (index + 1)) + 1
        (index, n, u) :: traceGroups close total inputs fuel (index + n)
    else []

/-- The time stamps `sim_times`, `samples` points per step (a whole number),
check_trace.py:98-126, 157-173 -/
def traceTimes {I : Type} (step : K) (samples : ℕ) (gs : List (ℕ × ℕ × I)) : List K :=
  0 :: gs.flatMap fun g =>
    ((linspace (step * (g.2.1 : K)) (1 + samples * g.2.1)).tail).map fun t => t + (g.1 : K) * step

/-- `check`'s groups: at most one input per step (checked), all of them used, check_trace.py:79-132 -/
def checkTrace {I : Type} (close : I → I → Bool) (total : ℕ) (inputs : List I) :
    Except Err (List (ℕ × ℕ × I)) := do
  assert (inputs.length ≤ total)
  return traceGroups close total inputs inputs.length 0

end Hylaa
