import Verif.Model.Counterexample
import Verif.Model.Approx

/-!
# The reachability computation: core.py, aggdag.py, aggstrat.py, deaggregation.py, aggregate.py

Python objects that are shared and mutated (state sets, transition operations, aggdag nodes) live in
heaps: lists indexed by position.  A position never changes its meaning; `None` references are
`Option`s.  Not modelled here: printing, plotting, timers.
-/

namespace Hylaa

/-- `AggType`'s three kinds; exactly one is set by `_get_agg_type`, aggstrat.py:202-212 -/
inductive AggKind
  | box | arnoldi | chull
  deriving DecidableEq

/-- `POP_LOWEST_MINTIME, POP_LOWEST_AVGTIME, POP_LARGEST_MAXTIME`  aggstrat.py:76 -/
inductive PopType
  | minTime | avgTime | maxTime
  deriving DecidableEq

/-- `DEAGG_LEAVES_FIRST, DEAGG_ROOT_FIRST, DEAGG_MOST_STATES`  aggstrat.py:77 -/
inductive DeaggPref
  | leaves | root | most
  deriving DecidableEq

/-- `Aggregated`  aggstrat.py:72-92 -/
structure AggStrat where
  kind : AggKind := .arnoldi
  pop : PopType := .avgTime
  addGuard : Bool := true
  samePath : Bool := true
  deagg : Bool := false
  pref : DeaggPref := .most

/-- The settings the computation reads (settings.py).  `strat = none` is `Unaggregated`. -/
structure Settings where
  numSteps : ℕ
  stopAgg : Bool := false
  stopConc : Bool := true
  tt : Bool := true
  skipZero : Bool := true
  urgent : Bool := false
  makeCe : Bool := true
  strat : Option AggStrat := some {}

/-- `OpTransition`  deaggregation.py:17-28 with `premode_center` (aggstrat.py:186).  `parent`,
`child`: nodes; `trans`: position in the automaton; `post`: state set. -/
structure OpTr (K : Type) where
  step : ℕ
  parent : Option ℕ
  child : Option ℕ
  trans : Option ℕ
  post : ℕ
  center : Option (List K) := none

/-- Entries of a node's `op_list`: `OpInvIntersect`, `OpLeftInvariant` (deaggregation.py:14-15) or a
transition operation. -/
inductive NOp
  | inv (step idx : ℕ) (stronger : Bool)
  | left (step : ℕ) (timeBound : Bool)
  | tr (op : ℕ)

/-- `AggType`  aggstrat.py:12 -/
structure AggType where
  kind : AggKind
  addGuard : Bool

/-- `AggDagNode`  aggdag.py:296-341 -/
structure Node where
  ops : List NOp := []
  state : ℕ
  parents : List ℕ
  agg : Option AggType

/-- The replay in progress: `deagg_parent`, `deagg_children`, `nodes_to_ops` (in insertion order),
`replay_step`.  deaggregation.py:38-50 -/
structure Replay where
  parent : ℕ
  children : List ℕ
  toOps : List ((ℕ × ℕ) × List ℕ) := []
  idx : ℕ := 0

/-- `Core` with its `AggDag`, `DeaggregationManager` and `HylaaResult`.  core.py:29-56,
aggdag.py:19-34, deaggregation.py:34-50.  `te`: each mode's time-elapse object. -/
structure Core (K : Type) where
  states : List (SS K) := []
  ops : List (OpTr K) := []
  nodes : List Node := []
  waiting : List ℕ := []
  roots : List ℕ := []
  cur : Option ℕ := none
  queue : List (ℕ × List ℕ) := []
  rep : Option Replay := none
  te : ℕ → Option (TE K) := fun _ => none
  tookTt : Bool := false
  hasAgg : Bool := false
  hasConc : Bool := false
  ce : List (CeSeg K) := []

variable {K : Type} [Field K] [LinearOrder K]

/-- What does not change during a run: solver, tolerances, settings, automaton, each mode's
discrete dynamics, `epsTt = 2 * step_size / num_steps / 1000` (hybrid_automaton.py:725), and the
Arnoldi directions: `make_direction_matrix` in the predecessor mode projected by the reset and
re-orthogonalised (aggregate.py:37-52), a parameter here; `arnoldiDirs` (Model/Directions.lean) models that
code.  Its first argument, the number of nodes, is different for every call of a run, so that the random
vectors drawn may be different each time.  `approx`: `settings.approx_model` (settings.py:28, 45), with the
constants `lgg` the model `.lgg` reads. -/
structure Env (K : Type) [Field K] where
  S : Solver K
  T : Tols K
  set : Settings
  ha : HA K
  dyn : ℕ → Dyn K
  epsTt : K
  dirs : ℕ → Option (List K) → Mode K → Tr K → ℕ → Except Err (List (List K))
  approx : ApproxModel := .none
  lgg : LggCfg K := ⟨fun _ => 0, 0, 0, 0⟩

/-! ### Heap access -/

/-- `op_list and isinstance(op_list[-1], OpLeftInvariant)`  aggdag.py:389-399, 549 -/
def Node.left (n : Node) : Bool :=
  match n.ops.getLast? with
  | some (.left _ _) => true
  | _ => false

/-- Append to a node's `op_list`. -/
def Core.pushOp (σ : Core K) (nid : ℕ) (o : NOp) : Core K :=
  { σ with nodes := σ.nodes.modify nid fun n => { n with ops := n.ops ++ [o] } }

/-- Replace a state set. -/
def Core.setState (σ : Core K) (sid : ℕ) (st : SS K) : Core K :=
  { σ with states := σ.states.set sid st }

/-- The node being computed and its state set: `get_cur_state`, aggdag.py:40-51, 543-553 -/
def Core.curState (σ : Core K) : Option (ℕ × ℕ) :=
  match σ.cur with
  | none => none
  | some nid =>
    match σ.nodes[nid]? with
    | none => none
    | some n => if n.left then none else some (nid, n.state)

/-- `doing_replay`  deaggregation.py:52-55 -/
def Core.doingReplay (σ : Core K) : Bool := σ.rep.isSome || !σ.queue.isEmpty

/-- `Core.is_finished`  core.py:78-95 (reachability) -/
def Core.isFinished (E : Env K) (σ : Core K) : Bool :=
  if E.set.stopAgg && σ.hasAgg then true
  else if E.set.stopConc && σ.hasConc then true
  else σ.curState.isNone && σ.waiting.isEmpty && !σ.doingReplay

/-- `Core.error_reached`  core.py:97-125: the result flags and the counterexample `ce` computed by
`ceFor` -/
def Core.errorReached (σ : Core K) (concrete : Bool) (ce : List (CeSeg K)) : Core K :=
  if concrete then { σ with hasConc := true, ce := ce } else { σ with hasAgg := true }

/-- `get_ancestors`  aggstrat.py:274-286, root first.  `fuel` bounds the recursion depth
(RecursionError). -/
def ancestors (σ : Core K) : ℕ → ℕ → Except Err (List ℕ)
  | 0, _ => .error .runtime
  | fuel + 1, nid => do
    let n ← needSome σ.nodes[nid]?
    let p0 ← needSome n.parents[0]?
    let o ← needSome σ.ops[p0]?
    (match o.parent with
      | none => .ok [nid]
      | some p => do
        let l ← ancestors σ fuel p
        return l ++ [nid])

/-- The numbers of steps in the modes of a path, result.py:148-157 -/
def ceSteps (σ : Core K) (st : SS K) : Except Err (List ℕ) :=
  match st.opList with
  | [] => .ok [st.stepIn]
  | oid :: _ => do
    let o ← needSome σ.ops[oid]?
    let c ← needSome o.child
    let anc ← ancestors σ (σ.nodes.length + 1) c
    let l ← (anc.drop 1).mapM fun nid => (do
      let n ← needSome σ.nodes[nid]?
      assert (n.parents.length = 1)
      let p ← needSome n.parents[0]?
      let o ← needSome σ.ops[p]?
      return o.step : Except Err ℕ)
    return l ++ [st.stepIn]

/-- `make_counterexample`  result.py:142-207; `ti`: the transition to the error mode, `tlp`: the
intersection with its guard.  (The basis GLPK keeps after this solve is not passed on.) -/
def makeCounterexample (E : Env K) (σ : Core K) (st : SS K) (ti : ℕ) (tlp : Lp K) :
    Except Err (List (CeSeg K)) := do
  let r ← minimize E.S tlp none none true
  let sol ← needSome r.2
  let nums ← ceSteps σ st
  let segs ← ceLoop E.ha nums (tlp.names.zip sol) []
  modLast (fun s => .ok { s with out := some ti }) segs

/-- The counterexample after entering mode `dst` from state set `st`: only the first concrete one is
made, if wanted.  core.py:113-124 -/
def ceFor (E : Env K) (σ : Core K) (dst : Mode K) (st : SS K) (ti : ℕ) (tlp : Lp K) :
    Except Err (List (CeSeg K)) :=
  if dst.isError && st.concrete && !σ.hasConc && E.set.makeCe && σ.ce.isEmpty then
    makeCounterexample E σ st ti tlp
  else .ok σ.ce

/-- `cur_state_left_invariant`  aggdag.py:53-61 -/
def Core.leftInvariant (σ : Core K) (timeBound : Bool) : Except Err (Core K) := do
  let c ← needSome σ.curState
  let st ← needSome σ.states[c.2]?
  return { σ.pushOp c.1 (.left st.stepIn timeBound) with cur := none }

/-! ### Transitions -/

/-- `aggstrat.pretransition`  aggstrat.py:48-55, 179-190: the centre, or `none` on failure. -/
def pretransition (E : Env K) (lp : Lp K) : Except Err (Lp K × Option (Option (List K))) :=
  match E.set.strat with
  | some { kind := .arnoldi, .. } => do
    let r ← getBoxCenter E.S lp
    return (r.1, r.2.map some)
  | _ => .ok (lp, some none)

/-- `make_op_transition`  aggdag.py:101-136.  `none`: `pretransition` failed. -/
def makeOp (E : Env K) (σ : Core K) (ti : ℕ) (t : Tr K) (tlp : Lp K) (st : SS K) (nid : ℕ) :
    Except Err (Core K × Option ℕ) := do
  let r ← pretransition E tlp
  (match r.2 with
    | none => .ok (σ, none)
    | some c => do
      let dst ← needSome E.ha.modes[t.dst]?
      let s ← addResetVariables r.1.toSys dst.id t.index t.reset t.mink t.minkC t.minkRhs
        dst.inputs.isSome
      let f ← isFeasible E.S { r.1 with toSys := s }
      need (f.2 = true)
      let post ← SS.make E.T dst t.dst f.1 st.steps [σ.ops.length] st.concrete
      return ({ σ with ops := σ.ops ++ [{ step := st.stepIn, parent := some nid, child := none,
                                          trans := some ti, post := σ.states.length, center := c }],
                       states := σ.states ++ [post] }, some σ.ops.length))

/-- `add_transition_successor`  aggdag.py:138-156 -/
def addSuccessor (E : Env K) (σ : Core K) (ti : ℕ) (t : Tr K) (tlp : Lp K) (st : SS K) (nid : ℕ) :
    Except Err (Core K) := do
  let r ← makeOp E σ ti t tlp st nid
  return (match r.2 with
    | none => r.1
    | some oid => { r.1.pushOp nid (.tr oid) with waiting := r.1.waiting ++ [oid] })

/-- Variables occurring in the equations of the guard's variables, hybrid_automaton.py:756-771 -/
def affineVars (a : Csr K) (r : SRow K) : List ℕ :=
  ((r.filter fun p => decide (p.2 ≠ 0)).flatMap fun p =>
    ((a.row p.1).filter fun q => decide (q.2 ≠ 0)).map fun q => q.1).eraseDups

/-- `[a if n == var else 0 ...]` -/
def unitVec (n var : ℕ) (a : K) : List K := (List.range n).map fun i => if i = var then a else 0

/-- The loop over the affine variables, hybrid_automaton.py:775-788 -/
def affineLoop (S : Solver K) (eps : K) (lp : Lp K) (vars : List ℕ) : Except Err (Lp K × Bool) :=
  match vars with
  | [] => .ok (lp, true)
  | var :: vars => do
    let r1 ← minimize S lp (some (unitVec lp.dims var 1)) (some [lp.cur + var]) true
    let v1 ← needSome (r1.2.getD [])[0]?
    let r2 ← minimize S r1.1 (some (unitVec lp.dims var (-1))) (some [lp.cur + var]) true
    let v2 ← needSome (r2.2.getD [])[0]?
    (if |v2 - v1| > eps ∨ |v2| < eps then .ok (r2.1, false) else affineLoop S eps r2.1 vars)

/-- `np.dot(values, direction)` -/
def dotDense (d v : List K) : K := (List.zipWith (fun a b => a * b) d v).sum

/-- The loop over the guard rows of `was_tt_taken`, hybrid_automaton.py:731-805; `acc` is `rv`. -/
def ttLoop (S : Solver K) (eps : K) (a : Csr K) (inv : List (LinCon K)) (ncols : ℕ) (lp : Lp K)
    (rows : List (SRow K × K)) (acc : Bool) : Except Err (Lp K × Bool) :=
  match rows with
  | [] => .ok (lp, acc)
  | (r, b) :: rows =>
    if rowOnly (getTtVars a) r &&
        inv.any (fun lc => decide (|lc.rhs - -b| < eps) && oppositeRow ncols lc.row r) then do
      let q ← affineLoop S eps lp (affineVars a r)
      (if q.2 then do
        let d := (List.range ncols).map (coefAt r)
        let cols := (List.range q.1.dims).map fun n => q.1.cur + n
        let r1 ← minimize S q.1 (some d) (some cols) true
        let r2 ← minimize S r1.1 (some (d.map fun x => -x)) (some cols) true
        ttLoop S eps a inv ncols r2.1 rows (acc ||
          (decide (|dotDense d (r2.2.getD []) - dotDense d (r1.2.getD [])| < eps) &&
           decide (dotDense d (r1.2.getD []) ≤ b)))
      else ttLoop S eps a inv ncols q.1 rows acc)
    else ttLoop S eps a inv ncols lp rows acc

/-- `was_tt_taken`  hybrid_automaton.py:718-807 -/
def wasTtTaken (E : Env K) (src : Mode K) (lp : Lp K) (g : Csr K × List K) :
    Except Err (Lp K × Bool) := do
  let a ← needSome src.a
  ttLoop E.S E.epsTt a src.inv g.1.ncols lp (g.1.rows.zip g.2) false

/-- The time-triggered check after a transition was taken, core.py:152-159 -/
def ttCheck (E : Env K) (σ : Core K) (t : Tr K) (g : Csr K × List K) (sid : ℕ) :
    Except Err (Core K) :=
  if E.set.tt && t.tt then do
    let st ← needSome σ.states[sid]?
    let src ← needSome E.ha.modes[t.src]?
    let r ← wasTtTaken E src st.lp g
    return { σ.setState sid { st with lp := r.1 } with tookTt := σ.tookTt || r.2 }
  else .ok σ

/-- The transition loop of `check_guards`, core.py:134-159; `nid`, `sid`: node and state set. -/
def guardLoop (E : Env K) (nid sid : ℕ) (σ : Core K) (ts : List ℕ) : Except Err (Core K) :=
  match ts with
  | [] => .ok σ
  | ti :: ts => do
    let st ← needSome σ.states[sid]?
    let t ← needSome E.ha.trans[ti]?
    let g ← needSome t.guard
    let r ← guardIntersection E.S st.lp g
    let σ := σ.setState sid { st with lp := r.1 }
    (match r.2 with
      | none => guardLoop E nid sid σ ts
      | some tlp => do
        let dst ← needSome E.ha.modes[t.dst]?
        let ce ← ceFor E σ dst { st with lp := r.1 } ti tlp
        let σ := if dst.isError then σ.errorReached st.concrete ce else σ
        (if dst.isError && (E.set.stopAgg || (st.concrete && E.set.stopConc)) then .ok σ
         else do
          let σ ← addSuccessor E σ ti t tlp { st with lp := r.1 } nid
          let σ ← ttCheck E σ t g sid
          guardLoop E nid sid σ ts))

/-- `Core.check_guards`  core.py:127-161 -/
def checkGuards (E : Env K) (σ : Core K) : Except Err (Core K) := do
  let c ← needSome σ.curState
  let st ← needSome σ.states[c.2]?
  let ts ← needSome E.ha.out[st.mode]?
  guardLoop E c.1 c.2 σ ts

/-- `Core.intersect_invariant` on the current state, recording the operations in the current node.
core.py:163-196, aggdag.py:91-99 -/
def intersectCur (E : Env K) (σ : Core K) : Except Err (Core K × Bool) := do
  let c ← needSome σ.curState
  let st ← needSome σ.states[c.2]?
  let m ← needSome E.ha.modes[st.mode]?
  let r ← SS.intersectInvariant E.S E.T m st
  let σ := σ.setState c.2 r.1
  return (r.2.2.foldl (fun σ q => σ.pushOp c.1 (.inv st.stepIn q.1 q.2)) σ, r.2.1)

/-- `state.step(target)` with the mode's time-elapse object, stateset.py:100-148 -/
def stepState (E : Env K) (σ : Core K) (sid : ℕ) (target : Option ℕ) : Except Err (Core K) := do
  let st ← needSome σ.states[sid]?
  let m ← needSome E.ha.modes[st.mode]?
  let r ← st.step (E.dyn st.mode) m (σ.te st.mode) target
  return { σ.setState sid r.2 with te := Function.update σ.te st.mode r.1 }

/-- `a_csr.nnz == 0` -/
def Csr.noEntries (a : Csr K) : Bool := a.rows.all fun r => r.isEmpty

/-- `do_step_continuous_post`  core.py:211-246 -/
def stepPost (E : Env K) (σ : Core K) : Except Err (Core K) := do
  let c ← needSome σ.curState
  let st ← needSome σ.states[c.2]?
  (if σ.isFinished E then .ok σ
   else if E.set.numSteps ≤ st.steps.1 then σ.leftInvariant true
   else if σ.tookTt then ({ σ with tookTt := false } : Core K).leftInvariant false
   else do
    let r ← intersectCur E σ
    (if r.2 = false then r.1.leftInvariant false
     else do
      let σ ← stepState E r.1 c.2 none
      let σ ← checkGuards E σ
      let m ← needSome E.ha.modes[st.mode]?
      let a ← needSome m.a
      (if a.noEntries && E.set.skipZero then σ.leftInvariant false else .ok σ)))

/-! ### Aggregation -/

/-- `np.allclose(direction, row)` -/
def closeRow (T : Tols K) (d row : List K) : Bool :=
  decide (d.length = row.length) &&
    (d.zip row).all fun p => decide (|p.1 - p.2| ≤ T.atol + T.rtol * |p.2|)

/-- The template directions, aggregate.py:30-82 (matrices have one width, otherwise
`np.concatenate` raises) -/
def templateDirs (E : Env K) (σ : Core K) (kind : AggKind) (addGuard : Bool) (o : OpTr K) (n : ℕ) :
    Except Err (List (List K)) := do
  let ti ← needSome o.trans
  let t ← needSome E.ha.trans[ti]?
  let boxDirs : List (List K) := (List.range n).map fun d => unitVec n d 1
  let dirs ← (if kind = .box then .ok boxDirs
    else do
      let pn ← needSome o.parent
      let pnode ← needSome σ.nodes[pn]?
      let pst ← needSome σ.states[pnode.state]?
      let pm ← needSome E.ha.modes[pst.mode]?
      let ds ← E.dirs σ.nodes.length o.center pm t n
      need (∀ d ∈ ds, d.length = n)
      return ds ++ boxDirs.filter fun d => ds.all fun r => !closeRow E.T d r : Except Err _)
  (if addGuard then do
    let g ← needSome t.guard
    let gd : List (List K) := g.1.rows.map fun r => match t.reset with
      | none => (List.range g.1.ncols).map (coefAt r)
      | some R => R.rows.map fun q => ((List.range g.1.ncols).map fun j => coefAt r j * coefAt q j).sum
    need (∀ d ∈ gd, d.length = n)
    return dirs ++ gd
  else .ok dirs)

/-- `[min first, max second]` of the step intervals, aggregate.py:19-21, 92-94 -/
def stepInterval (l : List (ℕ × ℕ)) : ℕ × ℕ :=
  ((l.map fun s => s.1).min?.getD 0, (l.map fun s => s.2).max?.getD 0)

/-- Write back the instances touched by optimisation. -/
def Core.setLps (σ : Core K) (l : List (ℕ × Lp K)) : Core K :=
  { σ with states := l.foldl (fun ss p => ss.modify p.1 fun st => { st with lp := p.2 }) σ.states }

/-- `_aggregate_from_state_op_list`  aggdag.py:361-386, aggregate.py:11-103 -/
def aggregateOps (E : Env K) (σ : Core K) (ops : List ℕ) (os : List (OpTr K)) (sts : List (SS K))
    (at_ : AggType) : Except Err (Core K × SS K) := do
  let st0 ← needSome sts[0]?
  let m ← needSome E.ha.modes[st0.mode]?
  let steps := stepInterval (sts.map fun s => s.steps)
  (match at_.kind with
    | .chull => do
      let lp ← aggregateChull E.S E.T.dblMax (sts.map fun s => s.lp) m
      let st ← SS.make E.T m st0.mode lp steps ops false
      return (σ, st)
    | kind => do
      let a ← needSome m.a
      let o ← needSome os[os.length / 2]?
      let dirs ← templateDirs E σ kind at_.addGuard o a.nrows
      let r ← aggregate E.S E.T.norm2 (sts.map fun s => s.lp) dirs a.nrows m
      let st ← SS.make E.T m st0.mode r.2 steps ops false
      return (σ.setLps ((os.map fun o => o.post).zip r.1), st))

/-- The state set of a new node: the single operation's own state set, or a new aggregated one.
aggdag.py:305-318.  Returns the heap and the state set's position. -/
def nodeState (E : Env K) (σ : Core K) (ops : List ℕ) (os : List (OpTr K)) (sts : List (SS K))
    (at_ : Option AggType) : Except Err (Core K × ℕ) :=
  match os with
  | [o] => .ok (σ, o.post)
  | _ => do
    let at_ ← needSome at_
    let r ← aggregateOps E σ ops os sts at_
    return ({ r.1 with states := r.1.states ++ [r.2] }, r.1.states.length)

/-- `make_node` and `AggDagNode.__init__`  aggdag.py:230-246, 299-341.  Returns the new node. -/
def makeNode (E : Env K) (σ : Core K) (ops : List ℕ) (at_ : Option AggType)
    (aggstr : Option String) : Except Err (Core K × ℕ) := do
  let os ← ops.mapM fun o => needSome σ.ops[o]?
  let sts ← os.mapM fun o => needSome σ.states[o.post]?
  let r ← nodeState E σ ops os sts at_
  let st ← needSome r.1.states[r.2]?
  let σ := r.1.setState r.2 { st with aggstr := aggstr }
  return ({ σ with nodes := σ.nodes ++ [{ state := r.2, parents := ops, agg := at_ }],
                   ops := ops.foldl (fun l o => l.modify o fun x => { x with child := some σ.nodes.length })
                     σ.ops,
                   roots := if os.any (fun o => o.parent.isNone) then σ.roots ++ [σ.nodes.length]
                     else σ.roots }, σ.nodes.length)

/-- `Aggregated.pop_score`  aggstrat.py:129-145 -/
def popScore (p : PopType) (st : SS K) : ℤ :=
  match p with
  | .minTime => -(st.steps.1 : ℤ)
  | .avgTime => -((st.steps.1 : ℤ) + st.steps.2)
  | .maxTime => st.steps.2

/-- A waiting operation with its state set and mode name. -/
structure WaitItem (K : Type) where
  oid : ℕ
  op : OpTr K
  st : SS K
  name : String

/-- Read a waiting operation. -/
def waitItem (E : Env K) (σ : Core K) (oid : ℕ) : Except Err (WaitItem K) := do
  let o ← needSome σ.ops[oid]?
  let st ← needSome σ.states[o.post]?
  let m ← needSome E.ha.modes[st.mode]?
  return ⟨oid, o, st, m.name⟩

/-- Does `b` replace `a` as the best operation?  aggstrat.py:96-103 -/
def better (p : PopType) (a b : WaitItem K) : Bool :=
  decide (popScore p b.st > popScore p a.st) ||
    (decide (popScore p b.st = popScore p a.st) && decide (b.name < a.name))

/-- Is `b` aggregated with the best operation `a`?  aggstrat.py:110-124 -/
def compatible (s : AggStrat) (a b : WaitItem K) : Bool :=
  decide (b.op.post = a.op.post) ||
    (decide (b.st.mode = a.st.mode) && (!s.samePath ||
      (decide (b.op.trans = a.op.trans) && decide (b.op.parent = a.op.parent))))

/-- `aggstrat.pop_waiting_list`  aggstrat.py:37-44, 83-127 (an empty list raises IndexError) -/
def stratPop (E : Env K) (items : List (WaitItem K)) : Except Err (List (WaitItem K)) := do
  let first ← needSome items[0]?
  return (match E.set.strat with
    | none => [first]
    | some s =>
      let best := items.foldl (fun a b => if better s.pop a b then b else a) first
      items.filter (compatible s best))

/-- The restrictions applied by the aggdag, aggdag.py:200-210 -/
def restrictPop (E : Env K) (l : List (WaitItem K)) : Except Err (List (WaitItem K)) := do
  let first ← needSome l[0]?
  let m ← needSome E.ha.modes[first.st.mode]?
  let l := if m.isError then [first] else l
  return (match l.find? (fun w => w.op.parent.isNone) with
    | some w => [w]
    | none => l)

/-- `get_agg_type`  aggstrat.py:60-67, 192-212 (`Unaggregated` raises) -/
def aggTypeOf (E : Env K) : Except Err AggType := do
  let s ← needSome E.set.strat
  return ⟨s.kind, s.addGuard⟩

/-- `AggDag.pop_waiting_list`  aggdag.py:192-228 -/
def popWaiting (E : Env K) (σ : Core K) : Except Err (Core K) := do
  let items ← σ.waiting.mapM (waitItem E σ)
  let l ← stratPop E items
  let l ← restrictPop E l
  let ids := l.map fun w => w.oid
  let rest := σ.waiting.filter fun o => !ids.contains o
  assert (σ.waiting.length = rest.length + ids.length)
  let at_ ← (if 1 < ids.length then do
      let t ← aggTypeOf E
      return some t
    else .ok none : Except Err (Option AggType))
  let r ← makeNode E { σ with waiting := rest } ids at_ (some "full")
  return { r.1 with cur := some r.2 }

/-- `cur_state.apply_approx_model(self.settings.approx_model)`  core.py:278 -/
def approxCur (E : Env K) (σ : Core K) : Except Err (Core K) := do
  let c ← needSome σ.curState
  let st ← needSome σ.states[c.2]?
  let m ← needSome E.ha.modes[st.mode]?
  let r ← st.applyApprox E.S E.T E.lgg (E.dyn st.mode) m E.approx (σ.te st.mode)
  return { σ.setState c.2 r.2 with te := Function.update σ.te st.mode r.1 }

/-- `do_step_pop`  core.py:248-284 -/
def stepPop (E : Env K) (σ : Core K) : Except Err (Core K) := do
  let σ ← popWaiting E σ
  let c ← needSome σ.curState
  let st ← needSome σ.states[c.2]?
  let m ← needSome E.ha.modes[st.mode]?
  (if m.isError then σ.leftInvariant false
   else do
    let r ← intersectCur E σ
    (if r.2 then approxCur E r.1 else r.1.leftInvariant false))

/-! ### Deaggregation -/

/-- The scan of the waiting list, aggstrat.py:223-252: `seen` maps nodes to the first transition
seen. -/
def deaggScan (E : Env K) (σ : Core K) (ws : List ℕ) (seen : List (Option ℕ × Option ℕ))
    (rv : Option ℕ) : Except Err (Option ℕ) :=
  match ws with
  | [] => .ok rv
  | oid :: ws => do
    let o ← needSome σ.ops[oid]?
    let st ← needSome σ.states[o.post]?
    (if st.concrete then deaggScan E σ ws seen rv
     else do
      let m ← needSome E.ha.modes[st.mode]?
      let rv := if m.isError then o.parent else rv
      (match seen.lookup o.parent with
        | some tr => deaggScan E σ ws seen (if o.trans ≠ tr then o.parent else rv)
        | none => do
          let p ← needSome o.parent
          let n ← needSome σ.nodes[p]?
          assert (n.left = true)
          deaggScan E σ ws (seen ++ [(o.parent, o.trans)]) rv))

/-- Number of parent operations of a node. -/
def Core.numParents (σ : Core K) (nid : ℕ) : ℕ :=
  match σ.nodes[nid]? with
  | some n => n.parents.length
  | none => 0

/-- `get_deagg_node`  aggstrat.py:46-50, 214-277.  Python's `sorted` is stable. -/
def getDeaggNode (E : Env K) (σ : Core K) : Except Err (Option ℕ) :=
  match E.set.strat with
  | none => .ok none
  | some s =>
    if s.deagg then do
      let rv ← deaggScan E σ σ.waiting [] none
      (match rv with
        | none => .ok none
        | some nid => do
          let anc ← ancestors σ (σ.nodes.length + 1) nid
          let anc := match s.pref with
            | .leaves => anc.reverse
            | .root => anc
            | .most => (anc.insertionSort fun a b => σ.numParents a ≤ σ.numParents b).reverse
          let n := anc.find? fun n => decide (1 < σ.numParents n)
          assert (n.isSome = true)
          return n)
    else .ok none

/-- `_get_node_leaf_ops`  aggdag.py:158-177.  `fuel` bounds the recursion depth. -/
def leafOps (σ : Core K) : ℕ → ℕ → Except Err (List ℕ)
  | 0, _ => .error .runtime
  | fuel + 1, nid => do
    let n ← needSome σ.nodes[nid]?
    let trs : List ℕ := n.ops.filterMap fun o => match o with | .tr i => some i | _ => none
    let os ← trs.mapM fun i => needSome σ.ops[i]?
    let here := ((trs.zip os).filter fun p => p.2.child.isNone).map fun p => p.1
    let kids := (os.filterMap fun o => o.child).eraseDups
    let rest ← kids.mapM (leafOps σ fuel)
    return here ++ rest.flatten

/-- `AggDagNode.split`  aggdag.py:352-373 -/
def splitNode (E : Env K) (σ : Core K) (nid : ℕ) : Except Err (Core K × (ℕ × ℕ)) := do
  let n ← needSome σ.nodes[nid]?
  assert (1 < n.parents.length)
  let st ← needSome σ.states[n.state]?
  let s := if st.aggstr = some "full" then some "" else st.aggstr
  let mid := n.parents.length / 2
  let r0 ← makeNode E σ (n.parents.take mid) n.agg (s.map fun x => x ++ "0")
  let r1 ← makeNode E r0.1 (n.parents.drop mid) n.agg (s.map fun x => x ++ "1")
  return (r1.1, (r0.2, r1.2))

/-- `begin_replay`  deaggregation.py:205-216, aggdag.py:179-190 -/
def beginReplay (E : Env K) (σ : Core K) (nid : ℕ) : Except Err (Core K) := do
  let rm ← leafOps σ (σ.nodes.length + 1) nid
  let r ← splitNode E { σ with waiting := σ.waiting.filter fun o => !rm.contains o } nid
  return { r.1 with queue := r.1.queue ++ [(nid, [r.2.1, r.2.2])] }

/-- `update_transition_successors`  deaggregation.py:187-203 -/
def addToOps (l : List ((ℕ × ℕ) × List ℕ)) (k : ℕ × ℕ) (o : ℕ) : List ((ℕ × ℕ) × List ℕ) :=
  match l with
  | [] => [(k, [o])]
  | (k', os) :: l => if k' = k then (k', os ++ [o]) :: l else (k', os) :: addToOps l k o

/-- `replay_op_transition`  aggdag.py:457-493; `kid`: the child node, `oid`: the old operation,
`toOps`: `nodes_to_ops`. -/
def replayTr (E : Env K) (σ : Core K) (kid oid : ℕ) (toOps : List ((ℕ × ℕ) × List ℕ)) :
    Except Err (Core K × List ((ℕ × ℕ) × List ℕ)) := do
  let n ← needSome σ.nodes[kid]?
  let o ← needSome σ.ops[oid]?
  let σ ← stepState E σ n.state (some o.step)
  let st ← needSome σ.states[n.state]?
  let ti ← needSome o.trans
  let t ← needSome E.ha.trans[ti]?
  let g ← needSome t.guard
  let r ← guardIntersection E.S st.lp g
  let σ := σ.setState n.state { st with lp := r.1 }
  (match r.2 with
    | none => .ok (σ, toOps)
    | some tlp => do
      let dst ← needSome E.ha.modes[t.dst]?
      let ce ← ceFor E σ dst { st with lp := r.1 } ti tlp
      let σ := if dst.isError then σ.errorReached st.concrete ce else σ
      let q ← makeOp E σ ti t tlp { st with lp := r.1 } kid
      return (match q.2 with
        | none => (q.1, toOps)
        | some new => match o.child with
          | none => ({ q.1.pushOp kid (.tr new) with waiting := q.1.waiting ++ [new] }, toOps)
          | some c => (q.1.pushOp kid (.tr new), addToOps toOps (kid, c) new)))

/-- `replay_op_intersect_invariant` and its caller, aggdag.py:444-453, 497-540 -/
def replayInv (E : Env K) (σ : Core K) (kid step idx : ℕ) : Except Err (Core K) := do
  let n ← needSome σ.nodes[kid]?
  let σ ← stepState E σ n.state (some step)
  let st ← needSome σ.states[n.state]?
  let m ← needSome E.ha.modes[st.mode]?
  let lc ← needSome m.inv[idx]?
  let r ← checkIntersection E.S st.lp lc.negate E.T.inter
  (match r.2 with
    | none => .ok ((σ.setState n.state { st with lp := r.1 }).pushOp kid (.left step false))
    | some false => .ok (σ.setState n.state { st with lp := r.1 })
    | some true => do
      let q ← ({ st with lp := r.1 } : SS K).addInv E.S E.T idx lc
      let f ← isFeasible E.S q.1.lp
      let σ := (σ.setState n.state { q.1 with lp := f.1 }).pushOp kid (.inv step idx q.2)
      return (if f.2 then σ else σ.pushOp kid (.left step false)))

/-- `replay_op`  aggdag.py:407-455 for one child (the computed `skip` flag is not used by the code).
A child that has left the invariant is passed over, deaggregation.py:146-150. -/
def replayOp (E : Env K) (σ : Core K) (kid : ℕ) (o : NOp) (toOps : List ((ℕ × ℕ) × List ℕ)) :
    Except Err (Core K × List ((ℕ × ℕ) × List ℕ)) := do
  let n ← needSome σ.nodes[kid]?
  (if n.left then .ok (σ, toOps)
   else match o with
    | .left s tb => .ok (σ.pushOp kid (.left s tb), toOps)
    | .tr oid => replayTr E σ kid oid toOps
    | .inv step idx _ => do
      let σ ← replayInv E σ kid step idx
      return (σ, toOps))

/-- One operation, for all children, deaggregation.py:146-150 -/
def replayKids (E : Env K) (o : NOp) (σ : Core K) (kids : List ℕ)
    (toOps : List ((ℕ × ℕ) × List ℕ)) : Except Err (Core K × List ((ℕ × ℕ) × List ℕ)) :=
  match kids with
  | [] => .ok (σ, toOps)
  | k :: kids => do
    let r ← replayOp E σ k o toOps
    replayKids E o r.1 kids r.2

/-- The step of an operation. -/
def nopStep (σ : Core K) (o : NOp) : Except Err ℕ :=
  match o with
  | .inv s _ _ => .ok s
  | .left s _ => .ok s
  | .tr oid => do
    let op ← needSome σ.ops[oid]?
    return op.step

/-- `isinstance(op, OpTransition)` -/
def NOp.isTr : NOp → Bool
  | .tr _ => true
  | _ => false

/-- `isinstance(op, OpLeftInvariant)` -/
def NOp.isLeft : NOp → Bool
  | .left _ _ => true
  | _ => false

/-- The loop of `do_step_replay`, deaggregation.py:132-152: `cur` is `cur_step_in_mode`, `only` is
`only_process_transitions`, `k` counts the operations processed. -/
def replayLoop (E : Env K) (kids : List ℕ) (σ : Core K) (ops : List NOp) (cur : ℕ) (only lft : Bool)
    (k : ℕ) (toOps : List ((ℕ × ℕ) × List ℕ)) :
    Except Err (Core K × (ℕ × Bool × ℕ × List ((ℕ × ℕ) × List ℕ))) :=
  match ops with
  | [] => .ok (σ, (cur, lft, k, toOps))
  | o :: ops => do
    let s ← nopStep σ o
    let adv : Bool := decide (s > cur) && !only
    let cur := if adv then cur + 1 else cur
    let only := only || adv
    (if s ≠ cur then .ok (σ, (cur, lft, k, toOps))
     else if only && !o.isTr then .ok (σ, (cur, lft, k, toOps))
     else do
      let r ← replayKids E o σ kids toOps
      replayLoop E kids r.1 ops cur only (lft || o.isLeft) (k + 1) r.2)

/-- Advance the children that have not left, deaggregation.py:154-157, and check (while plotting)
that they arrived, deaggregation.py:57-82, 159-161 -/
def advanceKids (E : Env K) (cur : ℕ) (chk : Bool) (σ : Core K) (kids : List ℕ) :
    Except Err (Core K) :=
  match kids with
  | [] => .ok σ
  | k :: kids => do
    let n ← needSome σ.nodes[k]?
    let σ ← (if n.left then .ok σ else do
      let σ ← stepState E σ n.state (some cur)
      let st ← needSome σ.states[n.state]?
      assert (chk = true → st.stepIn = cur)
      return σ : Except Err (Core K))
    advanceKids E cur chk σ kids

/-- Make the nodes of the refined successors and queue them, deaggregation.py:168-176 -/
def finishReplay (E : Env K) (σ : Core K) (l : List ((ℕ × ℕ) × List ℕ)) : Except Err (Core K) :=
  match l with
  | [] => .ok σ
  | ((_, c), ops) :: l => do
    let n ← needSome σ.nodes[c]?
    let st ← needSome σ.states[n.state]?
    let r ← makeNode E σ ops n.agg st.aggstr
    finishReplay E { r.1 with queue := r.1.queue ++ [(c, [r.2])] } l

/-- Have all children left the invariant? -/
def Core.allLeft (σ : Core K) (kids : List ℕ) : Bool :=
  kids.all fun k => match σ.nodes[k]? with | some n => n.left | none => false

/-- `init_replay`  deaggregation.py:84-94 -/
def initReplay (σ : Core K) : Except Err (Core K × Replay) :=
  match σ.rep, σ.queue with
  | some r, _ => .ok (σ, r)
  | none, (p, ks) :: q => .ok ({ σ with queue := q }, { parent := p, children := ks })
  | none, [] => .error .assertion

/-- `do_step_replay`  deaggregation.py:96-185 -/
def stepReplay (E : Env K) (σ : Core K) : Except Err (Core K) := do
  let i ← initReplay σ
  let r := i.2
  let pn ← needSome i.1.nodes[r.parent]?
  let o ← needSome pn.ops[r.idx]?
  let s ← nopStep i.1 o
  let q ← replayLoop E r.children i.1 (pn.ops.drop r.idx) s o.isTr false 0 r.toOps
  let σ ← advanceKids E q.2.1 (!q.2.2.1) q.1 r.children
  (if pn.ops.length ≤ r.idx + q.2.2.2.1 ∨ σ.allLeft r.children = true then
    finishReplay E { σ with rep := none } q.2.2.2.2
   else .ok { σ with rep := some { r with idx := r.idx + q.2.2.2.1, toOps := q.2.2.2.2 } })

/-! ### Main loop -/

/-- `do_step_reach`  core.py:291-321 -/
def doStep (E : Env K) (σ : Core K) : Except Err (Core K) :=
  if σ.isFinished E then .ok σ
  else if σ.curState.isSome then stepPost E σ
  else if σ.doingReplay then stepReplay E σ
  else do
    let d ← getDeaggNode E σ
    (match d with
      | some n => do
        let σ ← beginReplay E σ n
        stepReplay E σ
      | none => do
        let σ ← stepPop E σ
        (if E.set.urgent && σ.curState.isSome then checkGuards E σ else .ok σ))

/-- The initial sets kept by `setup`, core.py:358-375: infeasible ones are dropped, the cached
invariant rows are reset. -/
def setupStates (E : Env K) (σ : Core K) (l : List (SS K)) : Except Err (Core K) :=
  match l with
  | [] => .ok σ
  | st :: l => do
    let m ← needSome E.ha.modes[st.mode]?
    let f ← isFeasible E.S st.lp
    (if f.2 = false then setupStates E σ l
     else do
      let r ← SS.intersectInvariant E.S E.T m { st with lp := f.1 }
      (if r.2.1 = false then setupStates E σ l
       else setupStates E { σ with
          ops := σ.ops ++ [{ step := 0, parent := none, child := none, trans := none,
                             post := σ.states.length }],
          states := σ.states ++ [{ r.1 with invRows := m.inv.map fun _ => none }],
          waiting := σ.waiting ++ [σ.ops.length] } l))

/-- `Core.setup`  core.py:338-378, after `setup_ha` -/
def setup (E : Env K) (init : List (SS K)) : Except Err (Core K) := do
  assert (init ≠ [])
  let σ ← setupStates E {} init
  need (σ.waiting ≠ [])
  return σ

/-- `n` rounds of the main loop `while not is_finished(): do_step()`, plotutil.py:963-981 -/
def runSteps (E : Env K) : ℕ → Core K → Except Err (Core K)
  | 0, σ => .ok σ
  | n + 1, σ => do
    let σ ← doStep E σ
    runSteps E n σ

/-- What `run` reports: "Error modes are reachable", "System is safe, although error modes were
reachable when aggregation was used", "System is safe". -/
inductive Verdict
  | reachable | safeAgg | safe
  deriving DecidableEq

/-- The report at the end of `Core.run`, core.py:409-415 -/
def Core.verdict (σ : Core K) : Verdict :=
  if σ.hasConc then .reachable else if σ.hasAgg then .safeAgg else .safe

end Hylaa
