import Verif.Model.Basic

/-!
# The LP instance (hylaa/lpinstance.py)

GLPK's problem object plus the Python bookkeeping.  The part that determines the represented set
is `Sys`; `Lp` adds the objective and the solver's warm-start state.  GLPK's 1-based rows and
columns become 0-based.
-/

namespace Hylaa

/-- GLPK row types used by the library: `GLP_FX` (=), `GLP_UP` (<=), `GLP_LO` (>=).
lpinstance.py:307-337 -/
inductive RowType | fx | up | lo
  deriving DecidableEq, Repr

/-- One row of the GLPK problem: type, bound, stored coefficients. -/
structure LRow (K : Type) where
  ty : RowType
  rhs : K
  coefs : SRow K

/-- The constraint system of an `LpInstance` with the reachability bookkeeping.
lpinstance.py:35-51.  `dims`, `basis_mat_pos`, `cur_vars_offset` are `None` before
`set_reach_vars`; here they are 0, every modelled caller sets them before reading them. -/
structure Sys (K : Type) where
  names : List String := []
  rows : List (LRow K) := []
  dims : ℕ := 0
  bmPos : ℕ × ℕ := (0, 0)
  cur : ℕ := 0
  ie : Option (ℕ × ℕ) := none
  bmIdx : List (List ℕ) := []

/-- An `LpInstance`: constraint system, objective coefficients held by GLPK, `obj_cols`, and an
opaque token for GLPK's basis / warm-start state.  lpinstance.py:35-51 -/
structure Lp (K : Type) extends Sys K where
  obj : ℕ → K
  objCols : List ℕ := []
  ws : ℕ := 0

section
variable {K : Type} [Field K] [LinearOrder K]

/-- Does a row hold at an assignment of all columns?  (meaning of GLPK row bounds) -/
def LRow.holds (r : LRow K) (v : ℕ → K) : Prop :=
  match r.ty with
  | .fx => dot r.coefs v = r.rhs
  | .up => dot r.coefs v ≤ r.rhs
  | .lo => r.rhs ≤ dot r.coefs v

/-- The assignment satisfies every row (columns are free variables, lpinstance.py:304-305). -/
def Sys.Sat (s : Sys K) (v : ℕ → K) : Prop := ∀ r ∈ s.rows, r.holds v

/-- The set the instance represents: `x` is the value of the current-time columns in some
solution.  Coordinates `≥ dims` of `x` are ignored. -/
def Sys.Mem (s : Sys K) (x : ℕ → K) : Prop :=
  ∃ v, s.Sat v ∧ ∀ i < s.dims, v (s.cur + i) = x i

/-- `LpInstance()`  lpinstance.py:35-51 -/
def Lp.new : Lp K := { obj := fun _ => 0 }

/-- `get_num_rows`  lpinstance.py:880-883 -/
def Sys.numRows (s : Sys K) : ℕ := s.rows.length

/-- `get_num_cols` is `len(self.names)`  lpinstance.py:885-889 -/
def Sys.numCols (s : Sys K) : ℕ := s.names.length

/-- `add_cols`  lpinstance.py:292-305 -/
def Sys.addCols (s : Sys K) (ns : List String) : Sys K := { s with names := s.names ++ ns }

/-- `add_rows_with_types`  lpinstance.py:307-337 -/
def Sys.addRowsWithTypes (s : Sys K) (types : List RowType) (rhs : List K) : Except Err (Sys K) :=
  if types.length = rhs.length then
    .ok { s with rows := s.rows ++ (types.zip rhs).map fun p => ⟨p.1, p.2, []⟩ }
  else .error .assertion

/-- `add_rows_less_equal`  lpinstance.py:339-357 -/
def Sys.addRowsLE (s : Sys K) (rhs : List K) : Sys K :=
  { s with rows := s.rows ++ rhs.map fun b => ⟨.up, b, []⟩ }

/-- `add_rows_equal_zero`  lpinstance.py:359-369 -/
def Sys.addRowsEqZero (s : Sys K) (n : ℕ) : Sys K :=
  { s with rows := s.rows ++ List.replicate n ⟨.fx, 0, []⟩ }

/-- `glp_set_mat_row(lp, i+1, ...)`: replace the coefficients of one row; zero entries are not
stored.  (GLPK aborts the process on repeated or out-of-range indices; not modelled.) -/
def Sys.setMatRow (s : Sys K) (i : ℕ) (coefs : SRow K) : Sys K :=
  { s with rows := s.rows.modify i fun r => { r with coefs := coefs.filter fun p => p.2 ≠ 0 } }

/-- `glp_set_mat_col(lp, j+1, ...)`: replace column `j`; `entries` are `(row, value)`. -/
def Sys.setMatCol (s : Sys K) (j : ℕ) (entries : SRow K) : Sys K :=
  { s with rows := s.rows.mapIdx fun i r =>
      { r with coefs := (r.coefs.filter fun p => p.1 ≠ j) ++
          (entries.filter fun p => p.1 = i ∧ p.2 ≠ 0).map fun p => (j, p.2) } }

/-- The row loop of `set_constraints_csr`, lpinstance.py:402-412: row `k` of the block goes to
LP row `off.1 + k`, columns shifted by `off.2`. -/
def Sys.setCsrLoop (s : Sys K) (rows : List (SRow K)) (r0 c0 : ℕ) : Sys K :=
  match rows with
  | [] => s
  | r :: rs => (s.setMatRow r0 (shiftRow c0 r)).setCsrLoop rs (r0 + 1) c0

/-- `set_constraints_csr`  lpinstance.py:371-414 (negative offsets cannot be expressed) -/
def Sys.setCsr (s : Sys K) (c : Csr K) (off : ℕ × ℕ := (0, 0)) : Except Err (Sys K) :=
  if off.1 + c.rows.length > s.numRows ∨ off.2 + c.ncols > s.numCols then .error .runtime
  else .ok (s.setCsrLoop c.rows off.1 off.2)

/-- The column loop of `set_constraints_csc`, lpinstance.py:461-471. -/
def Sys.setCscLoop (s : Sys K) (cols : List (SRow K)) (r0 c0 : ℕ) : Sys K :=
  match cols with
  | [] => s
  | c :: cs => (s.setMatCol c0 (shiftRow r0 c)).setCscLoop cs r0 (c0 + 1)

/-- `set_constraints_csc`  lpinstance.py:430-473 -/
def Sys.setCsc (s : Sys K) (c : Csc K) (off : ℕ × ℕ := (0, 0)) : Except Err (Sys K) :=
  if off.1 + c.nrows > s.numRows ∨ off.2 + c.cols.length > s.numCols then .error .runtime
  else .ok (s.setCscLoop c.cols off.1 off.2)

/-- `set_constraints_swigvec_rows`  lpinstance.py:416-428: like `setCsrLoop` with absolute
indices. -/
def Sys.setSwigRows (s : Sys K) (rows : List (SRow K)) (r0 : ℕ) : Sys K :=
  s.setCsrLoop rows r0 0

/-- `_create_bm_indices`  lpinstance.py:91-113: for each row the absolute columns of
`BM | -I | (I)`. -/
def mkBmIdx (dims : ℕ) (bmCol cur : ℕ) (ie : Option (ℕ × ℕ)) : List (List ℕ) :=
  (List.range dims).map fun row =>
    (List.range dims).map (fun col => bmCol + col) ++ [cur + row] ++
      (match ie with | none => [] | some p => [p.2 + row])

/-- The asserts of `set_reach_vars` on the input-effects offsets, lpinstance.py:80-82. -/
def ieFits (ie : Option (ℕ × ℕ)) (dims nr nc : ℕ) : Bool :=
  match ie with
  | none => true
  | some p => decide (p.1 + dims ≤ nr) && decide (p.2 + dims ≤ nc)

/-- `set_reach_vars`  lpinstance.py:71-89 -/
def Sys.setReachVars (s : Sys K) (dims : ℕ) (bmPos : ℕ × ℕ) (cur : ℕ) (ie : Option (ℕ × ℕ)) :
    Except Err (Sys K) :=
  if bmPos.1 + dims ≤ s.numRows ∧ bmPos.2 + 2 * dims ≤ s.numCols ∧
      ieFits ie dims s.numRows s.numCols = true then
    .ok { s with dims, bmPos, cur, ie, bmIdx := mkBmIdx dims bmPos.2 cur ie }
  else .error .assertion

/-- `clone`  lpinstance.py:58-69.  `glp_copy_prob` copies rows, columns, objective and basis
statuses; `set_reach_vars` re-checks the layout and rebuilds `bm_indices`. -/
def Lp.clone (lp : Lp K) : Except Err (Lp K) :=
  match lp.toSys.setReachVars lp.dims lp.bmPos lp.cur lp.ie with
  | .ok s => .ok { lp with toSys := s }
  | .error e => .error e

/-- `get_dense_constraints(x, y, w, h)`  lpinstance.py:761-784 -/
def Sys.getDense (s : Sys K) (x y w h : ℕ) : Except Err (Mat K) :=
  if x + w ≤ s.numCols ∧ y + h ≤ s.numRows then
    .ok ⟨h, w, fun i j => match s.rows[y + i]? with
      | some r => if i < h ∧ j < w then coefAt r.coefs (x + j) else 0
      | none => 0⟩
  else .error .assertion

/-- `get_full_constraints`  lpinstance.py:819-849 -/
def Sys.getFull (s : Sys K) : Csr K := ⟨s.numCols, s.rows.map fun r => r.coefs⟩

/-- `get_types`  lpinstance.py:750-759 -/
def Sys.getTypes (s : Sys K) : List RowType := s.rows.map fun r => r.ty

/-- `get_rhs` for one row, lpinstance.py:805-815.  All three types return `glp_get_row_ub`.  For a
`GLP_LO` row GLPK's upper bound is not the right-hand side (it is `+DBL_MAX`, given here by the
parameter `dblMax`): the code reads the wrong bound. -/
def LRow.getRhs (dblMax : K) (r : LRow K) : K :=
  match r.ty with
  | .fx => r.rhs
  | .up => r.rhs
  | .lo => dblMax

/-- `get_rhs()` of all rows, lpinstance.py:791-817 -/
def Sys.getRhs (dblMax : K) (s : Sys K) : List K := s.rows.map (LRow.getRhs dblMax)

/-- `get_row(row)`  lpinstance.py:851-878 -/
def Sys.getRow (s : Sys K) (i : ℕ) : Except Err (SRow K) :=
  match s.rows[i]? with
  | some r => .ok r.coefs
  | none => .error .assertion

/-- `set_constraint_rhs`  lpinstance.py:718-736 -/
def Sys.setConstraintRhs (s : Sys K) (i : ℕ) (rhs : K) : Except Err (Sys K) :=
  if i < s.numRows then .ok { s with rows := s.rows.modify i fun r => { r with rhs := rhs } }
  else .error .assertion

/-- `glp_set_obj_coef`. -/
def Lp.setObj (lp : Lp K) (j : ℕ) (a : K) : Lp K :=
  { lp with obj := Function.update lp.obj j a }

/-- Set the previous objective columns to zero and empty `obj_cols`.  lpinstance.py:504-508 -/
def Lp.clearObj (lp : Lp K) : Lp K :=
  { lp.objCols.foldl (fun l j => l.setObj j 0) lp with objCols := [] }

/-- The csr loop of `set_minimize_direction`, lpinstance.py:514-524 (with its assert). -/
def Lp.setObjCsrLoop (lp : Lp K) (off : ℕ) (r : SRow K) : Except Err (Lp K) :=
  match r with
  | [] => .ok lp
  | p :: r =>
    if off + p.1 + 1 ≤ lp.names.length then
      ({ lp with objCols := lp.objCols ++ [off + p.1] }.setObj (off + p.1) p.2).setObjCsrLoop off r
    else .error .assertion

/-- The dense loop of `set_minimize_direction`, lpinstance.py:533-536. -/
def Lp.setObjDenseLoop (lp : Lp K) (col : ℕ) (d : List K) : Lp K :=
  match d with
  | [] => lp
  | a :: d => ({ lp with objCols := lp.objCols ++ [col] }.setObj col a).setObjDenseLoop (col + 1) d

/-- `set_minimize_direction(direction_vec, is_csr=True, offset)`  lpinstance.py:486-538.
`ncols` is `direction_vec.shape[1]`. -/
def Lp.setMinDirCsr (lp : Lp K) (ncols : ℕ) (r : SRow K) (offset : Option ℕ) :
    Except Err (Lp K) :=
  match offset with
  | none =>
    if ncols ≤ lp.dims then lp.clearObj.setObjCsrLoop lp.cur r else .error .assertion
  | some o =>
    if ncols + o ≤ lp.numCols then lp.clearObj.setObjCsrLoop o r else .error .assertion

/-- `set_minimize_direction(direction_vec)` with a dense vector.  lpinstance.py:486-538.
(With a dense vector and an offset the code fails on `.shape[1]`; no caller does that.) -/
def Lp.setMinDir (lp : Lp K) (d : List K) : Except Err (Lp K) :=
  if d.length ≤ lp.dims then .ok (lp.clearObj.setObjDenseLoop lp.cur d) else .error .assertion

/-- Value of the objective at an assignment. -/
def Lp.objVal (lp : Lp K) (v : ℕ → K) : K := ∑ j ∈ Finset.range lp.numCols, lp.obj j * v j

end
end Hylaa
