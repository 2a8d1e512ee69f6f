import Verif.Model.Trace

/-!
# Simulation

Points are lists of numbers; the random numbers and the one-step matrix of every mode
(`time_elapse.get_basis_matrix(1)`, see `TimeElapse`) are parameters.  Plotting is not modelled.
-/

namespace Hylaa
variable {K : Type} [Field K] [LinearOrder K]

/-- A simulation `[mode, pt, steps]`  core.py:455, 474 -/
structure Sim (K : Type) where
  mode : ℕ
  pt : List K
  steps : ℕ

/-- What the simulation reads: the automaton after `setup_ha`, the one-step matrices, and the
settings. -/
structure SimEnv (K : Type) where
  ha : HA K
  basis : ℕ → Mat K
  numSteps : ℕ
  urgent : Bool
  avoid : List String

/-- The attributes `sim_waiting_list`, `sim_states` (`None` is empty), `sim_should_try_guards`,
`sim_took_transition`.  core.py:455-573 -/
structure SimSt (K : Type) where
  waiting : List (Sim K) := []
  cur : List (Option (Sim K)) := []
  tryGuards : Bool := false
  took : List Bool := []

/-- `Core.simulate`: the initial simulations, one per random vector of index at least `skip`.
core.py:436-478 -/
def simInit (mode : ℕ) (box : List (K × K)) (skip : ℕ) (rands : List (List K)) : List (Sim K) :=
  (rands.drop skip).map fun r =>
    { mode := mode, pt := (box.zip r).map fun p => p.1.1 + p.2 * (p.1.2 - p.1.1), steps := 0 }

/-- `get_simulation_pop_mode`: the mode of the first simulation with the fewest steps outside the
avoided modes, else of the first.  aggstrat.py:158-178 -/
def simPopMode (C : SimEnv K) (l : List (Sim K)) : Except Err ℕ := do
  let ok ← l.mapM fun s => do
    let m ← needSome C.ha.modes[s.mode]?
    return (s, decide (m.name ∉ C.avoid))
  let cand := (ok.filter fun p => p.2).map fun p => p.1
  let first ← needSome l.head?
  return (match cand with
    | [] => first.mode
    | c :: cs => (cs.foldl (fun b s => if s.steps < b.steps then s else b) c).mode)

/-- `sim_pop_waiting_list`; simulation with inputs is refused.  core.py:480-506 -/
def simPop (C : SimEnv K) (σ : SimSt K) : Except Err (SimSt K) := do
  let i ← simPopMode C σ.waiting
  let m ← needSome C.ha.modes[i]?
  assert (m.inputs.isNone ∧ m.isError = false)
  let popped := σ.waiting.filter fun s => s.mode = i
  return { waiting := σ.waiting.filter fun s => s.mode ≠ i
           cur := popped.map some
           tryGuards := C.urgent
           took := popped.map fun _ => false }

/-- `is_guard_true_for_point`  hybrid_automaton.py:286-298 -/
def guardTrue (g : Csr K × List K) (pt : List K) : Bool :=
  (g.1.rows.zip g.2).all fun p => !decide (p.2 < dot p.1 (vecOf pt))

/-- `point_in_invariant`, `LinearConstraint.is_true_for_point`  hybrid_automaton.py:107-117, 55-58 -/
def inInv (m : Mode K) (pt : List K) : Bool := m.inv.all fun lc => decide (dot lc.row (vecOf pt) ≤ lc.rhs)

/-- The first transition whose guard is true, core.py:535-536 -/
def firstGuard (C : SimEnv K) (pt : List K) : List ℕ → Except Err (Option (Tr K))
  | [] => .ok none
  | ti :: ts => do
    let t ← needSome C.ha.trans[ti]?
    let g ← needSome t.guard
    (if guardTrue g pt then .ok (some t) else firstGuard C pt ts)

/-- `apply_reset_for_point`  hybrid_automaton.py:300-315 -/
def resetPoint (t : Tr K) (pt : List K) : Except Err (List K) := do
  assert (t.mink.isNone)
  return match t.reset with
    | none => pt
    | some R => R.mulList pt

/-- `np.dot(basis, pt)` -/
def Mat.mulList (m : Mat K) (x : List K) : List K := (List.range m.nr).map fun i => m.mulVec (vecOf x) i

/-- What one round does with one simulation. -/
structure SimOut (K : Type) where
  add : List (Sim K) := []
  obj : Option (Sim K) := none
  took : Bool
  tryGuards : Bool
  finished : Bool := true

/-- The body of the loop over `sim_states`, core.py:520-568 -/
def simOne (C : SimEnv K) (tryG took : Bool) (obj : Option (Sim K)) : Except Err (SimOut K) :=
  match obj with
  | none => .ok { took := took, tryGuards := tryG }
  | some s =>
    if s.steps = C.numSteps then .ok { took := took, tryGuards := tryG }
    else if took then .ok { took := took, tryGuards := tryG }
    else do
      let ts ← needSome C.ha.out[s.mode]?
      let t ← (if tryG then firstGuard C s.pt ts else .ok none : Except Err (Option (Tr K)))
      (match t with
        | some t => do
          let pt ← resetPoint t s.pt
          let dst ← needSome C.ha.modes[t.dst]?
          return { add := if dst.isError then [] else [{ mode := t.dst, pt := pt, steps := s.steps }]
                   obj := some { s with pt := pt }, took := true, tryGuards := tryG, finished := false }
        | none => do
          let m ← needSome C.ha.modes[s.mode]?
          (if inInv m s.pt then
            .ok { obj := some { s with pt := (C.basis s.mode).mulList s.pt, steps := s.steps + 1 }
                  took := false, tryGuards := true, finished := false }
           else .ok { took := false, tryGuards := tryG }))

/-- The loop, core.py:519-568: the waiting list, the simulations, the flags. -/
def simLoop (C : SimEnv K) (tryG : Bool) : List (Option (Sim K) × Bool) →
    Except Err (List (Sim K) × List (Option (Sim K) × Bool) × Bool × Bool)
  | [] => .ok ([], [], tryG, true)
  | p :: l => do
    let r ← simOne C tryG p.2 p.1
    let q ← simLoop C r.tryGuards l
    return (r.add ++ q.1, (r.obj, r.took) :: q.2.1, q.2.2.1, r.finished && q.2.2.2)

/-- `do_step_sim`  core.py:508-573 -/
def simStep (C : SimEnv K) (σ : SimSt K) : Except Err (SimSt K) :=
  match σ.cur with
  | [] => if σ.waiting = [] then .ok σ else simPop C σ
  | _ => do
    let r ← simLoop C σ.tryGuards (σ.cur.zip σ.took)
    return { waiting := σ.waiting ++ r.1
             cur := if r.2.2.2 then [] else r.2.1.map fun p => p.1
             tryGuards := r.2.2.1
             took := r.2.1.map fun p => p.2 }

/-- `n` simulation steps -/
def simSteps (C : SimEnv K) : ℕ → SimSt K → Except Err (SimSt K)
  | 0, σ => .ok σ
  | n + 1, σ => do
    let σ ← simStep C σ
    simSteps C n σ

end Hylaa
