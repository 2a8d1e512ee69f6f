import Verif.Model.Lp

/-!
# GLPK as an oracle and `LpInstance.minimize` (hylaa/lpinstance.py:540-600, 659-716)
-/

namespace Hylaa

/-- Return code of `glp_simplex`: 0, `GLP_ESING`, `GLP_ENOPFS`, or any other non-zero code. -/
inductive SimplexCode | ok | esing | enopfs | other (n : ℕ)
  deriving DecidableEq, Repr

/-- `glp_get_status`. -/
inductive LpStatus | opt | feas | infeas | nofeas | unbnd | undef
  deriving DecidableEq, Repr

/-- What one `glp_simplex` call leaves behind: return code, status, primal column values
(`glp_get_col_prim`) and the new warm-start state. -/
structure SimplexOut (K : Type) where
  code : SimplexCode
  status : LpStatus
  prim : ℕ → K
  ws : ℕ

/-- GLPK as an arbitrary oracle.  `run lp long` is `glp_simplex` on the problem with its current
objective and warm-start state (`long`: the second attempt's 30 s limit); `stdBasis`, `cpxBasis`
are `glp_std_basis`, `glp_cpx_basis`. -/
structure Solver (K : Type) where
  run : Lp K → Bool → SimplexOut K
  stdBasis : Lp K → ℕ
  cpxBasis : Lp K → ℕ

section
variable {K : Type} [Field K] [LinearOrder K]

/-- One `glp_simplex` call: its outcome and the LP with the new warm-start state. -/
def Solver.simplex (S : Solver K) (lp : Lp K) (long : Bool) : SimplexOut K × Lp K :=
  let o := S.run lp long
  (o, { lp with ws := o.ws })

/-- Copy the requested columns, lpinstance.py:679-694. `none`: all columns. -/
def copyColumns (lp : Lp K) (columns : Option (List ℕ)) (prim : ℕ → K) : Except Err (List K) :=
  match columns with
  | none => .ok ((List.range lp.numCols).map prim)
  | some cs => if cs.all (fun c => decide (c < lp.numCols)) then .ok (cs.map prim)
               else .error .assertion

/-- `_process_simplex_result`  lpinstance.py:659-716.  All non-optimal, non-infeasible outcomes
raise `RuntimeError`. -/
def processSimplex (lp : Lp K) (o : SimplexOut K) (columns : Option (List ℕ)) :
    Except Err (Option (List K)) :=
  match o.code with
  | .enopfs => .ok none
  | .esing => .error .runtime
  | .other _ => .error .runtime
  | .ok =>
    match o.status with
    | .nofeas => .ok none
    | .opt => match copyColumns lp columns o.prim with
      | .ok l => .ok (some l)
      | .error e => .error e
    | _ => .error .runtime

/-- The solve-and-retry part of `minimize`, lpinstance.py:556-580: first call; if the code is
non-zero and the matrix was singular, `glp_std_basis` and again; if still non-zero,
`glp_cpx_basis` and a last long attempt. -/
def solveRetry (S : Solver K) (lp : Lp K) : SimplexOut K × Lp K :=
  let (o, lp) := S.simplex lp false
  if o.code = .ok then (o, lp)
  else
    let (o, lp) := if o.code = .esing then S.simplex { lp with ws := S.stdBasis lp } false
                   else (o, lp)
    if o.code = .ok then (o, lp)
    else S.simplex { lp with ws := S.cpxBasis lp } true

/-- Set the direction if one was passed, lpinstance.py:553-554. -/
def setDirOpt (lp : Lp K) (dir : Option (List K)) : Except Err (Lp K) :=
  match dir with
  | none => .ok lp
  | some d => lp.setMinDir d

/-- `minimize(direction_vec, columns, fail_on_unsat=False)`  lpinstance.py:540-600 -/
def minimizeOnce (S : Solver K) (lp : Lp K) (dir : Option (List K)) (columns : Option (List ℕ)) :
    Except Err (Lp K × Option (List K)) :=
  match setDirOpt lp dir with
  | .error e => .error e
  | .ok lp =>
    match solveRetry S lp with
    | (o, lp) => match processSimplex lp o columns with
      | .error e => .error e
      | .ok r => .ok (lp, r)

/-- `minimize`  lpinstance.py:540-600.  With `fail_on_unsat` an infeasible answer is retried once
from a fresh basis and then raised as `UnsatError`. -/
def minimize (S : Solver K) (lp : Lp K) (dir : Option (List K)) (columns : Option (List ℕ))
    (failOnUnsat : Bool) : Except Err (Lp K × Option (List K)) :=
  match minimizeOnce S lp dir columns with
  | .error e => .error e
  | .ok (lp, some r) => .ok (lp, some r)
  | .ok (lp, none) =>
    if failOnUnsat then
      match minimizeOnce S { lp with ws := S.cpxBasis lp } dir columns with
      | .error e => .error e
      | .ok (lp, some r) => .ok (lp, some r)
      | .ok (_, none) => .error .unsat
    else .ok (lp, none)

/-- `is_feasible`  lpinstance.py:480-484 -/
def isFeasible (S : Solver K) (lp : Lp K) : Except Err (Lp K × Bool) :=
  match minimize S lp none (some []) false with
  | .error e => .error e
  | .ok (lp, r) => .ok (lp, r.isSome)

/-- An honest solver: an "optimal" answer is a feasible minimiser of the objective, and
"infeasible" is only answered for infeasible systems.  It may fail at will. -/
structure Solver.Honest (S : Solver K) : Prop where
  opt_sat : ∀ lp b, (S.run lp b).code = .ok → (S.run lp b).status = .opt →
    lp.Sat (S.run lp b).prim
  opt_min : ∀ lp b, (S.run lp b).code = .ok → (S.run lp b).status = .opt →
    ∀ w, lp.Sat w → lp.objVal (S.run lp b).prim ≤ lp.objVal w
  nofeas : ∀ lp b, (S.run lp b).code = .ok → (S.run lp b).status = .nofeas → ∀ w, ¬ lp.Sat w
  nopfs : ∀ lp b, (S.run lp b).code = .enopfs → ∀ w, ¬ lp.Sat w

end
end Hylaa
