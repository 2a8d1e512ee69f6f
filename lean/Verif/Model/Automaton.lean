import Verif.Model.LpUtil

/-!
# Hybrid automata (hylaa/hybrid_automaton.py)

Modes and transitions live in lists; a mode is referred to by its position (`mode_id`), a
transition by its position in `HybridAutomaton.transitions`.
-/

namespace Hylaa
variable {K : Type} [Field K] [LinearOrder K]

/-- `LinearConstraint.is_true_for_point`  hybrid_automaton.py:54-57 -/
def LinCon.isTrue (lc : LinCon K) (x : ℕ → K) : Bool := decide (dot lc.row x ≤ lc.rhs)

/-- `LinearConstraint.negate`  hybrid_automaton.py:59-62 -/
def LinCon.negate (lc : LinCon K) : LinCon K := ⟨lc.ncols, negRow lc.row, -lc.rhs⟩

/-- `(a == b).all()` on two 1-d index arrays with numpy broadcasting (an array of length one is
compared with every element of the other; other length mismatches raise).
hybrid_automaton.py:40-43 -/
def npAllEq (a b : List ℕ) : Except Err Bool :=
  if a.length = b.length then .ok (decide (a = b))
  else match a, b with
    | [x], _ => .ok (b.all fun y => decide (x = y))
    | _, [y] => .ok (a.all fun x => decide (x = y))
    | _, _ => .error .runtime

/-- The data loop of `almost_equals`, hybrid_automaton.py:45-52: `other.data[i]` may be out of
range (IndexError). -/
def dataClose (tol : K) (a b : List K) : Except Err Bool :=
  match a, b with
  | [], _ => .ok true
  | _ :: _, [] => .error .runtime
  | x :: a, y :: b => if |x - y| > tol then .ok false else dataClose tol a b

/-- `LinearConstraint.almost_equals`  hybrid_automaton.py:30-52 (the `indptr` test compares a value
with itself and is always true) -/
def LinCon.almostEquals (a b : LinCon K) (tol : K) : Except Err Bool :=
  if |a.rhs - b.rhs| > tol then .ok false
  else if a.ncols ≠ b.ncols then .ok false
  else
    match npAllEq (a.row.map fun p => p.1) (b.row.map fun p => p.1) with
    | .error e => .error e
    | .ok false => .ok false
    | .ok true => dataClose tol (a.row.map fun p => p.2) (b.row.map fun p => p.2)

/-- `Mode.point_in_invariant`  hybrid_automaton.py:107-117 -/
def Mode.pointInInvariant (m : Mode K) (x : ℕ → K) : Bool := m.inv.all fun lc => lc.isTrue x

/-- `Mode.set_dynamics`  hybrid_automaton.py:237-245 -/
def Mode.setDynamics (m : Mode K) (a : Csr K) : Except Err (Mode K) := do
  assert (a.nrows = a.ncols)
  return { m with a := some a }

/-- `Mode.set_invariant`  hybrid_automaton.py:119-155: one `LinearConstraint` per row is appended
to `inv_list`. -/
def Mode.setInvariant (S : Solver K) (m : Mode K) (c : Csr K) (rhs : List K) :
    Except Err (Mode K) := do
  assert (m.a.isSome = true)
  let a ← needSome m.a
  assert (c.ncols = a.nrows)
  assert (c.nrows = rhs.length)
  let f ← isFeasibleCsr S c rhs
  assert (f = true)
  return { m with inv := m.inv ++ (c.rows.zip rhs).map fun p => ⟨c.ncols, p.1, p.2⟩ }

/-- Number of non-zero entries of column `i` of `b` (`sum([1 if x != 0 ...])`),
hybrid_automaton.py:178-180 -/
def colNonzeros (b : Csr K) (i : ℕ) : ℕ := (b.rows.filter fun r => decide (coefAt r i ≠ 0)).length

/-- `np.array_equiv(unit row with entry `a` in column `i`, row)`, hybrid_automaton.py:186-194 -/
def isUnitRow (n i : ℕ) (a : K) (r : SRow K) : Bool :=
  (List.range n).all fun j => decide (coefAt r j = if j = i then a else 0)

/-- The scan for bounds of input `i`, hybrid_automaton.py:188-196.  The last matching row wins. -/
def inputBounds (n i : ℕ) (rows : List (SRow K × K)) (acc : Option K × Option K) :
    Option K × Option K :=
  match rows with
  | [] => acc
  | (r, b) :: rows =>
    inputBounds n i rows (if isUnitRow n i 1 r then (some b, acc.2)
      else if isUnitRow n i (-1) r then (acc.1, some (-b)) else acc)

/-- Is input `i` rejected as constant?  hybrid_automaton.py:176-211; `tol` is `1e-9`. -/
def inputFixed (tol : K) (b u : Csr K) (rhs : List K) (i : ℕ) : Bool :=
  if colNonzeros b i ≠ 1 then false
  else match inputBounds b.ncols i (u.rows.zip rhs) (none, none) with
    | (some lb, some ub) => decide (|ub - lb| < tol)
    | _ => false

/-- `Mode._check_inputs`  hybrid_automaton.py:157-212 -/
def checkInputs (S : Solver K) (tol : K) (a b u : Csr K) (rhs : List K) (allowConst : Bool) :
    Except Err Unit := do
  assert (u.nrows = rhs.length)
  assert (u.ncols = b.ncols)
  assert (b.nrows = a.nrows)
  let f ← isFeasibleCsr S u rhs
  assert (f = true)
  need (allowConst = true ∨ ∀ i < b.ncols, inputFixed tol b u rhs i = false)

/-- `Mode.set_inputs`  hybrid_automaton.py:214-242 -/
def Mode.setInputs (S : Solver K) (tol : K) (m : Mode K) (b u : Csr K) (rhs : List K)
    (allowConst : Bool := false) : Except Err (Mode K) := do
  assert (m.a.isSome = true)
  let a ← needSome m.a
  checkInputs S tol a b u rhs allowConst
  return { m with inputs := some ⟨b, u.toCsc, rhs⟩ }

/-- `Transition`  hybrid_automaton.py:267-292.  `guard = none`: not assigned yet. -/
structure Tr (K : Type) where
  src : ℕ
  dst : ℕ
  index : ℕ
  name : Option String := none
  guard : Option (Csr K × List K) := none
  reset : Option (Csr K) := none
  mink : Option (Csr K) := none
  minkC : Option (Csr K) := none
  minkRhs : Option (List K) := none
  tt : Bool := false

/-- `HybridAutomaton` with, per mode, its `transitions` list (positions in `trans`).
hybrid_automaton.py:469-478, 89 -/
structure HA (K : Type) where
  modes : List (Mode K) := []
  out : List (List ℕ) := []
  trans : List (Tr K) := []

/-- `HybridAutomaton.new_mode`  hybrid_automaton.py:480-487 -/
def HA.newMode (ha : HA K) (name : String) : Except Err (HA K) := do
  assert (name ∉ ha.modes.map fun m => m.name)
  return { ha with modes := ha.modes ++ [{ name := name, id := ha.modes.length }],
                   out := ha.out ++ [[]] }

/-- `HybridAutomaton.new_transition` and `Transition.__init__`
hybrid_automaton.py:267-292, 489-495.  The modes must belong to the automaton. -/
def HA.newTransition (ha : HA K) (src dst : ℕ) (name : Option String) : Except Err (HA K) := do
  need (src < ha.modes.length ∧ dst < ha.modes.length)
  let l ← needSome ha.out[src]?
  return { ha with trans := ha.trans ++ [{ src := src, dst := dst, index := l.length, name := name }],
                   out := ha.out.set src (l ++ [ha.trans.length]) }

/-- `Transition.set_guard`  hybrid_automaton.py:333-355 -/
def Tr.setGuard (S : Solver K) (ha : HA K) (t : Tr K) (c : Csr K) (rhs : List K) :
    Except Err (Tr K) := do
  let src ← needSome ha.modes[t.src]?
  assert (src.a.isSome = true)
  let a ← needSome src.a
  assert (0 < c.nrows → c.ncols = a.nrows)
  let f ← isFeasibleCsr S c rhs
  assert (f = true)
  assert (rhs.length = c.nrows)
  return { t with guard := some (c, rhs) }

/-- `Transition.set_guard_true`  hybrid_automaton.py:325-331 -/
def Tr.setGuardTrue (S : Solver K) (ha : HA K) (t : Tr K) : Except Err (Tr K) := do
  let src ← needSome ha.modes[t.src]?
  assert (src.a.isSome = true)
  let a ← needSome src.a
  t.setGuard S ha ⟨a.ncols, []⟩ []

/-- The Minkowski checks of `set_reset`, hybrid_automaton.py:399-418: returns the Minkowski
matrix to store. -/
def checkMink (S : Solver K) (toDims : ℕ) (mink minkC : Option (Csr K))
    (minkRhs : Option (List K)) : Except Err (Option (Csr K)) :=
  match minkRhs with
  | none => .ok mink
  | some rhs => do
    assert (minkC.isSome = true)
    let c ← needSome minkC
    assert (c.nrows = rhs.length)
    let m : Csr K := mink.getD (Csr.id c.ncols)
    assert (m.nrows = toDims)
    assert (m.ncols = c.ncols)
    let f ← isFeasibleCsr S c rhs
    assert (f = true)
    return some m

/-- `Transition.set_reset`  hybrid_automaton.py:357-424 -/
def Tr.setReset (S : Solver K) (ha : HA K) (t : Tr K) (reset mink minkC : Option (Csr K))
    (minkRhs : Option (List K)) : Except Err (Tr K) := do
  let src ← needSome ha.modes[t.src]?
  let dst ← needSome ha.modes[t.dst]?
  assert (src.a.isSome = true)
  let a ← needSome src.a
  let toA := dst.a.getD a
  assert (reset.isNone = true → a.nrows = toA.nrows)
  let r : Csr K := reset.getD (Csr.id a.nrows)
  assert (r.ncols = a.nrows)
  assert (r.nrows = toA.nrows)
  let m ← checkMink S toA.nrows mink minkC minkRhs
  return { t with reset := some r, mink := m, minkC := minkC, minkRhs := minkRhs }

/-- `Transition.is_guard_true_for_point`  hybrid_automaton.py:294-307 (an unassigned guard
raises) -/
def Tr.isGuardTrue (t : Tr K) (x : ℕ → K) : Except Err Bool := do
  let g ← needSome t.guard
  return (g.1.rows.zip g.2).all fun p => decide (¬ dot p.1 x > p.2)

/-- `Transition.apply_reset_for_point`  hybrid_automaton.py:309-323 -/
def Tr.applyReset (t : Tr K) (x : ℕ → K) : Except Err ((ℕ → K) × ℕ) := do
  assert (t.mink.isNone = true)
  return (match t.reset with
    | none => (x, t.dst)
    | some r => (fun i => dot (r.row i) x, t.dst))

/-- The per-row loop of `get_guard_intersection`, hybrid_automaton.py:434-456: `false` as soon as
one row cannot be satisfied alone (or the LP is infeasible). -/
def guardRowsLoop (S : Solver K) (lp : Lp K) (ncols : ℕ) (rows : List (SRow K × K)) :
    Except Err (Lp K × Bool) :=
  match rows with
  | [] => .ok (lp, true)
  | (r, b) :: rows => do
    let lp ← lp.setMinDirCsr ncols r none
    let res ← minimize S lp none (some (r.map fun p => lp.cur + p.1)) false
    (match res.2 with
      | none => .ok (res.1, false)
      | some vals => if dotList r vals > b then .ok (res.1, false)
                     else guardRowsLoop S res.1 ncols rows)

/-- `Transition.get_guard_intersection`  hybrid_automaton.py:426-466.  Returns the argument
instance (its objective and warm-start state change) and the intersection.  The code enumerates the
guard's rows and indexes `guard_rhs`. -/
def guardIntersection (S : Solver K) (lp : Lp K) (g : Csr K × List K) :
    Except Err (Lp K × Option (Lp K)) := do
  need (g.1.nrows ≤ g.2.length)
  let r ← guardRowsLoop S lp g.1.ncols (g.1.rows.zip g.2)
  if r.2 then
    let c ← r.1.clone
    let s ← addCurtimeConstraints c.toSys g.1 g.2
    let f ← isFeasible S { c with toSys := s }
    return (r.1, if f.2 then some f.1 else none)
  else return (r.1, none)

/-- `HybridAutomaton.check_transitions`  hybrid_automaton.py:497-523 -/
def HA.checkTransition (ha : HA K) (t : Tr K) : Except Err Unit := do
  let src ← needSome ha.modes[t.src]?
  let dst ← needSome ha.modes[t.dst]?
  assert (src.a.isSome = true)
  assert (t.guard.isSome = true)
  assert (dst.a.isSome = true → src.dims = dst.dims ∨ t.reset.isSome = true)

/-- `HybridAutomaton.check_transitions`  hybrid_automaton.py:497-523 -/
def HA.checkTransitions (ha : HA K) : Except Err Unit :=
  ha.trans.forM ha.checkTransition

/-- Is the invariant condition already among the guard rows?  hybrid_automaton.py:540-556; `tol`
is `1e-13`. -/
def inGuard (tol : K) (ncols : ℕ) (rows : List (SRow K × K)) (lc : LinCon K) : Except Err Bool :=
  match rows with
  | [] => .ok false
  | (r, b) :: rows => do
    let e ← (⟨ncols, r, b⟩ : LinCon K).almostEquals lc tol
    if e then .ok true else inGuard tol ncols rows lc

/-- The conditions to add, hybrid_automaton.py:537-560. -/
def missingInGuard (tol : K) (ncols : ℕ) (rows : List (SRow K × K)) (inv : List (LinCon K)) :
    Except Err (List (LinCon K)) :=
  match inv with
  | [] => .ok []
  | lc :: inv => do
    let b ← inGuard tol ncols rows lc
    let l ← missingInGuard tol ncols rows inv
    return (if b then l else lc :: l)

/-- Strengthening of one transition, hybrid_automaton.py:531-586.  An index beyond the guard's width
makes the matrix constructor fail. -/
def strengthenTr (tol : K) (ha : HA K) (t : Tr K) : Except Err (Tr K) :=
  if t.src = t.dst ∨ t.tt = true ∨ t.reset.isSome = true then .ok t
  else do
    let dst ← needSome ha.modes[t.dst]?
    if dst.inv = [] then return t
    else
      let g ← needSome t.guard
      let add ← missingInGuard tol g.1.ncols (g.1.rows.zip g.2) dst.inv
      need (∀ lc ∈ add, ∀ p ∈ lc.row, p.1 < g.1.ncols)
      return { t with guard := some (⟨g.1.ncols, g.1.rows ++ add.map fun lc => lc.row⟩,
                                     g.2 ++ add.map fun lc => lc.rhs) }

/-- `HybridAutomaton.do_guard_strengthening`  hybrid_automaton.py:525-586 -/
def HA.strengthen (tol : K) (ha : HA K) : Except Err (HA K) := do
  let ts ← ha.trans.mapM (strengthenTr tol ha)
  return { ha with trans := ts }

/-- Positions of the empty rows (`constant_vars`), hybrid_automaton.py:640-646 -/
def constantVars (a : Csr K) : List ℕ :=
  (List.range a.nrows).filter fun i => (a.row i).isEmpty

/-- `get_tt_vars`  hybrid_automaton.py:632-664 -/
def getTtVars (a : Csr K) : List ℕ :=
  (List.range a.nrows).filter fun i => !(a.row i).isEmpty &&
    (a.row i).all fun p => decide (p.2 = 0) || (constantVars a).contains p.1

/-- Does a row only involve the given variables?  hybrid_automaton.py:685-690, 705-709 -/
def rowOnly (vars : List ℕ) (r : SRow K) : Bool :=
  r.all fun p => decide (p.2 = 0) || vars.contains p.1

/-- Sparse matrix comparison `(-1 * lc.csr != row).nnz == 0`: equal as dense rows (equal shapes).
hybrid_automaton.py:723 -/
def oppositeRow (n : ℕ) (a b : SRow K) : Bool :=
  (List.range n).all fun j => decide (-coefAt a j = coefAt b j)

/-- One guard row of `check_and_relax_time_triggered`, hybrid_automaton.py:700-735: the relaxed
bound and whether the row is time-triggered. -/
def relaxRow (inv : List (LinCon K)) (vars : List ℕ) (n : ℕ) (eps : K) (p : SRow K × K) :
    K × Bool :=
  if rowOnly vars p.1 && (inv.any fun lc => decide (lc.rhs = -p.2) && oppositeRow n lc.row p.1)
  then (p.2 + eps, true) else (p.2, false)

/-- `check_and_relax_time_triggered`  hybrid_automaton.py:666-742 -/
def relaxTt (inv : List (LinCon K)) (vars : List ℕ) (eps : K) (t : Tr K) : Except Err (Tr K) :=
  if inv.all fun lc => rowOnly vars lc.row then do
    let g ← needSome t.guard
    let rs := (g.1.rows.zip g.2).map (relaxRow inv vars g.1.ncols eps)
    if rs.any fun r => r.2 then
      return { t with guard := some (g.1, rs.map fun r => r.1), tt := true }
    else return t
  else .ok t

/-- `detect_tt_transitions`  hybrid_automaton.py:588-630 with `eps = step_size / num_steps / 1000`.
Each transition is reached exactly once, through its source mode. -/
def HA.detectTt (eps : K) (ha : HA K) : Except Err (HA K) := do
  let ts ← ha.trans.mapM fun t => (do
    let src ← needSome ha.modes[t.src]?
    (match src.a with
      | none => .ok t
      | some a => if (getTtVars a).isEmpty then .ok t else relaxTt src.inv (getTtVars a) eps t)
    : Except Err (Tr K))
  return { ha with trans := ts }

end Hylaa
