import Verif.Model.Mode

/-! # LP utilities (hylaa/lputil.py) -/

namespace Hylaa
variable {K : Type} [Field K] [LinearOrder K]

/-- `is_feasible(csr, rhs)`  lputil.py:1003-1022: build a throw-away LP with all rows `<=`. -/
def isFeasibleCsr (S : Solver K) (c : Csr K) (rhs : List K) : Except Err Bool := do
  assert (rhs.length = c.nrows)
  let names := (List.range c.ncols).map fun n => s!"x{n}"
  let s : Sys K := (({} : Sys K).addCols names).addRowsLE rhs
  let s ← s.setCsr c
  let r ← isFeasible S { s with obj := fun _ => 0 }
  return r.2

/-- The `I 0 -I (I)` block of `from_constraints`, lputil.py:144-165. -/
def basisBlock (ncols dims : ℕ) (hasInputs : Bool) : Csr K :=
  ⟨if hasInputs then 2 * dims + ncols else ncols + dims,
   (List.range dims).map fun n =>
     [(n, 1), (ncols + n, -1)] ++ (if hasInputs then [(ncols + dims + n, 1)] else [])⟩

/-- `-1 * identity(dims)`, lputil.py:179. -/
def negId (dims : ℕ) : Csr K := ⟨dims, (List.range dims).map fun n => [(n, -1)]⟩

/-- `from_constraints`  lputil.py:96-187.  (The caller's `names` list is extended in place by the
code; callers pass fresh lists.) -/
def fromConstraints (S : Solver K) (csr : Csr K) (rhs : List K) (mode : Mode K)
    (types : Option (List RowType) := none) (names : Option (List String) := none)
    (dims? : Option ℕ := none) : Except Err (Lp K) := do
  assert (csr.nrows = rhs.length)
  let feas ← isFeasibleCsr S csr rhs
  assert (feas = true)
  assert (types.isNone = names.isNone)
  let dims := dims?.getD csr.ncols
  assert (dims ≤ csr.ncols)
  let s : Sys K := ({} : Sys K).addRowsEqZero dims
  let names := names.getD ((List.range csr.ncols).map fun i => s!"m{mode.id}_i{i}")
  let names := names ++ (List.range dims).map fun i => s!"m{mode.id}_c{i}"
  let s := s.addCols names
  let s ← (match types with
    | none => .ok (s.addRowsLE rhs)
    | some types => s.addRowsWithTypes types rhs : Except Err (Sys K))
  let hasInputs := mode.inputs.isSome
  let s := if hasInputs then s.addCols ((List.range dims).map fun i => s!"m{mode.id}_ti{i}") else s
  let s ← s.setCsr (basisBlock csr.ncols dims hasInputs)
  let s ← s.setCsr csr (dims, 0)
  let iePos := (s.numRows, dims + csr.ncols)
  let s ← (if hasInputs then (s.addRowsEqZero dims).setCsr (negId dims) iePos else .ok s)
  let s ← s.setReachVars dims (0, 0) csr.ncols (if hasInputs then some iePos else none)
  return { s with obj := fun _ => 0 }

/-- `from_box`  lputil.py:19-49 -/
def fromBox (S : Solver K) (box : List (K × K)) (mode : Mode K) : Except Err (Lp K) := do
  assert (∀ p ∈ box, p.1 ≤ p.2)
  let rhs := box.flatMap fun p => [-p.1, p.2]
  let csr : Csr K := ⟨box.length, (List.range box.length).flatMap fun n => [[(n, -1)], [(n, 1)]]⟩
  fromConstraints S csr rhs mode

/-- A dense row with one non-zero entry, lputil.py:62-76. -/
def unitRow (dims k : ℕ) (a : K) : List K := (List.range dims).map fun d => if d = k then a else 0

/-- The dense equality row of one dimension, lputil.py:78-86: `-x_dim + c * 1 + Σ g_k a_k`. -/
def zonRow (cdims dims : ℕ) (gens : List (List K)) (dim : ℕ) (c : K) : List K :=
  (List.range dims).map fun d =>
    if cdims + 1 ≤ d then (gens.getD (d - (cdims + 1)) []).getD dim 0
    else if d = cdims then c
    else if d = dim then -1 else 0

/-- All rows (dense row, bound) of `from_zonotope`, in order: the constant column `= 1`, the
coefficients in `[-1, 1]`, the equalities as pairs of inequalities.  lputil.py:55-92 -/
def zonRows (center : List K) (gens : List (List K)) : List (List K × K) :=
  let cdims := center.length
  let dims := cdims + 1 + gens.length
  [(unitRow dims cdims 1, 1), (unitRow dims cdims (-1), -1)] ++
  ((List.range gens.length).flatMap fun i =>
    [(unitRow dims (cdims + 1 + i) 1, 1), (unitRow dims (cdims + 1 + i) (-1), 1)]) ++
  ((List.range cdims).flatMap fun dim =>
    [(zonRow cdims dims gens dim (center.getD dim 0), 0),
     ((zonRow cdims dims gens dim (center.getD dim 0)).map fun x => -1 * x, 0)])

/-- `from_zonotope`  lputil.py:51-94.  Rows are dense lists converted to csr (zeros dropped). -/
def fromZonotope (S : Solver K) (center : List K) (gens : List (List K)) (mode : Mode K) :
    Except Err (Lp K) := do
  assert (∀ g ∈ gens, g.length = center.length)
  fromConstraints S ⟨center.length + 1 + gens.length,
      (zonRows center gens).map fun r => denseRow r.1⟩
    ((zonRows center gens).map fun r => r.2) mode (dims? := some center.length)

/-- One row of `set_basis_matrix`, lputil.py:200-211: the cached indices zipped with
`BM row, -1, (1)`. -/
def bmRow (s : Sys K) (m : Mat K) (row : ℕ) : SRow K :=
  (s.bmIdx.getD row []).zip
    ((List.range s.dims).map (fun j => m.e row j) ++ [-1] ++ (if s.ie.isSome then [1] else []))

/-- `set_basis_matrix`  lputil.py:189-216 -/
def setBasisMatrix (s : Sys K) (m : Mat K) : Except Err (Sys K) := do
  assert (m.nr = m.nc)
  assert (m.nr = s.dims)
  return s.setSwigRows ((List.range s.dims).map (bmRow s m)) s.bmPos.1

/-- `get_basis_matrix`  lputil.py:625-632 -/
def getBasisMatrix (s : Sys K) : Except Err (Mat K) :=
  s.getDense s.bmPos.2 s.bmPos.1 s.dims s.dims

/-- `add_input_effects_matrix`  lputil.py:218-301.  Note the code's LGG assert
(`assert input_mat.shape[1] + num_inputs + num_vars`, line 233) only rejects a zero sum. -/
def addInputEffects (s : Sys K) (n : Mat K) (mode : Mode K) (lggBeta : Option K := none) :
    Except Err (Sys K) := do
  assert (s.ie.isSome = true)
  assert (mode.inputs.isSome = true)
  let ie ← needSome s.ie
  let inp ← needSome mode.inputs
  let a ← needSome mode.a
  let numVars := a.ncols
  let numInputs := inp.b.ncols
  assert (if lggBeta.isNone then n.nc = numInputs else n.nc + numInputs + numVars ≠ 0)
  assert (n.nr = numVars)
  assert (s.dims = numVars)
  let names := (List.range numInputs).map fun i => s!"m{mode.id}_I{i}"
  let names := names ++ (if lggBeta.isSome then
    (List.range numVars).map fun i => s!"m{mode.id}_b{i}" else [])
  let preCols := s.numCols
  let s := s.addCols names
  let preRows := s.numRows
  let s := s.addRowsLE inp.uRhs
  let preBloat := s.numRows
  let s := match lggBeta with
    | none => s
    | some beta => s.addRowsLE (List.replicate (2 * numVars) beta)
  let inCols : List (SRow K) := (List.range numInputs).map fun c =>
    (List.range s.dims).map (fun row => (row + ie.1, n.e row c)) ++
      (inp.uCsc.cols.getD c []).map (fun p => (preRows + p.1, p.2))
  need (lggBeta.isSome = true → numInputs + numVars ≤ n.nc)
  let bloatCols : List (SRow K) := if lggBeta.isSome then (List.range numVars).map fun v =>
      (List.range numVars).map (fun row => (row + ie.1, n.e row (numInputs + v))) ++
        [(preBloat + 2 * v, 1), (preBloat + 2 * v + 1, -1)]
    else []
  let numRows := preRows + inp.uRhs.length + (if lggBeta.isSome then 2 * numVars else 0)
  s.setCsc ⟨numRows, inCols ++ bloatCols⟩ (0, preCols)

/-- `np.dot(data, result)` for a sparse row and the returned column values. -/
def dotList (r : SRow K) (vals : List K) : K := (List.zipWith (fun p x => p.2 * x) r vals).sum

/-- `check_intersection`  lputil.py:303-332: `none` if the LP was infeasible. -/
def checkIntersection (S : Solver K) (lp : Lp K) (lc : LinCon K) (tol : K) :
    Except Err (Lp K × Option Bool) := do
  let lp ← lp.setMinDirCsr lc.ncols lc.row none
  let r ← minimize S lp none (some (lc.row.map fun p => lp.cur + p.1)) false
  return (r.1, r.2.map fun res => decide (dotList lc.row res + tol ≤ lc.rhs))

/-- The input part of `add_init_constraint`'s row, lputil.py:372-385. -/
def iePart (vec : ℕ → K) (dims : ℕ) (offset : ℕ) (ies : List (Mat K)) : SRow K :=
  match ies with
  | [] => []
  | n :: ies => rangeRow n.nc offset (fun c => ∑ k ∈ Finset.range dims, vec k * n.e k c) ++
      iePart vec dims (offset + n.nc) ies

/-- The input part of the new row; every matrix must have as many columns as the first.
lputil.py:372-385 -/
def ieRowOf (ie : Option (ℕ × ℕ)) (vec : ℕ → K) (dims : ℕ) (ies : Option (List (Mat K))) :
    Except Err (SRow K) :=
  match ies with
  | none => .ok []
  | some [] => .ok []
  | some (n :: ns) => do
    let p ← needSome ie
    assert (∀ m ∈ ns, m.nc = n.nc)
    return iePart vec dims (p.2 + dims) (n :: ns)

/-- `add_init_constraint`  lputil.py:334-397.  `vec` has the length of the basis matrix; every
input effects matrix must have as many columns as the first (line 380). -/
def addInitConstraint (s : Sys K) (vec : List K) (rhs : K) (bm : Mat K)
    (ies : Option (List (Mat K))) (rowIndex : Option ℕ) : Except Err (Sys K × ℕ) := do
  let dims := bm.nr
  need (vec.length = dims)
  let v : ℕ → K := fun k => vec.getD k 0
  let cols := s.numCols
  let row := rowIndex.getD s.numRows
  let s ← (match rowIndex with
    | none => .ok (s.addRowsLE [rhs])
    | some i => s.setConstraintRhs i rhs : Except Err (Sys K))
  let base := rangeRow dims s.bmPos.2 fun i => ∑ k ∈ Finset.range dims, v k * bm.e k i
  let ieRow ← ieRowOf s.ie v dims ies
  need (∀ p ∈ base ++ ieRow, p.1 < cols)
  let s ← s.setCsr ⟨cols, [base ++ ieRow]⟩ (row, 0)
  return (s, row)

/-- `try_replace_init_constraint`  lputil.py:399-445 -/
def tryReplaceInitConstraint (S : Solver K) (dblMax : K) (lp : Lp K) (oldRow : ℕ) (vec : List K)
    (rhs : K) (bm : Mat K) (ies : Option (List (Mat K))) : Except Err (Lp K × ℕ × Bool) := do
  let oldC ← lp.getRow oldRow
  let oldRhs := ((lp.rows[oldRow]?).map (LRow.getRhs dblMax)).getD 0
  let p ← addInitConstraint lp.toSys vec rhs bm ies (some oldRow)
  let lp : Lp K := { lp with toSys := p.1 }
  let lp ← lp.setMinDirCsr lp.numCols (negRow oldC) (some 0)
  let r ← minimize S lp none none false
  let lp := r.1
  match r.2 with
  | none => return (lp, p.2, true)
  | some res =>
    let resDot := dot oldC fun j => res.getD j 0
    if oldRhs ≤ resDot then
      let s := lp.toSys.addRowsLE [oldRhs]
      let s ← s.setCsr ⟨s.numCols, [oldC]⟩ (s.numRows - 1, 0)
      return ({ lp with toSys := s }, p.2, false)
    else return (lp, p.2, true)

/-- `add_curtime_constraints`  lputil.py:829-841 -/
def addCurtimeConstraints (s : Sys K) (c : Csr K) (rhs : List K) : Except Err (Sys K) :=
  (s.addRowsLE rhs).setCsr c (s.numRows, s.cur)

/-- `scale_with_bm`  lputil.py:634-640 -/
def scaleWithBm (s : Sys K) (amount : K) : Except Err (Sys K) := do
  let bm ← getBasisMatrix s
  setBasisMatrix s (bm.smul amount)

/-- `bloat`  lputil.py:642-678 -/
def bloat (s : Sys K) (amount : K) (varPrefix : String := "bloat") : Except Err (Sys K) := do
  assert (0 ≤ amount)
  let names := (List.range s.dims).map fun n => s!"{varPrefix}{n}"
  let precols := s.numCols
  let prerows := s.numRows
  let cols : List (SRow K) := (List.range s.dims).map fun n =>
    [(s.bmPos.1 + n, 1), (prerows + 2 * n, 1), (prerows + 2 * n + 1, -1)]
  let s1 := (s.addRowsLE (List.replicate (2 * s.dims) amount)).addCols names
  s1.setCsc ⟨prerows + 2 * s.dims, cols⟩ (0, precols)

/-- `add_reset_variables`  lputil.py:680-827.  `mink = none` means "no Minkowski part"
(lines 707-710); a Minkowski matrix without constraints makes the code fail. -/
def addResetVariables (s : Sys K) (modeId tIndex : ℕ) (reset : Option (Csr K))
    (mink : Option (Csr K)) (minkC : Option (Csr K)) (minkRhs : Option (List K))
    (succInputs : Bool) : Except Err (Sys K) := do
  let oldDims := s.dims
  let cols := s.numCols
  let rows := s.numRows
  let reset : Csr K := reset.getD (Csr.id oldDims)
  let minkC : Option (Csr K) := if mink.isNone then some ⟨0, []⟩ else minkC
  let minkRhs : Option (List K) := if mink.isNone then some [] else minkRhs
  let mink : Csr K := mink.getD ⟨0, []⟩
  assert (oldDims = reset.ncols)
  let newDims := reset.nrows
  let minVars := mink.ncols
  let names := (List.range minVars).map (fun i => s!"reset{i}") ++ [s!"m{modeId}_i0_t{tIndex}"] ++
    (List.range (newDims - 1)).map (fun d => s!"m{modeId}_i{d + 1}") ++
    (List.range newDims).map (fun d => s!"m{modeId}_c{d}") ++
    (if succInputs then (List.range newDims).map fun d => s!"m{modeId}_ti{d}" else [])
  let minkRhs ← needSome minkRhs
  let minkC ← needSome minkC
  let s := s.addCols names
  let s := s.addRowsEqZero (2 * newDims)
  let s := s.addRowsLE minkRhs
  let s := if succInputs then s.addRowsEqZero newDims else s
  need (0 < mink.ncols → newDims ≤ mink.nrows)
  let initRows : List (SRow K) := (List.range newDims).map fun dim =>
    shiftRow s.cur (reset.row dim) ++
      (if 0 < mink.ncols then shiftRow cols (mink.row dim) else []) ++
      [(cols + minVars + dim, -1)]
  let curRows : List (SRow K) := (List.range newDims).map fun dim =>
    [(cols + minVars + dim, 1), (cols + minVars + newDims + dim, -1)] ++
      (if succInputs then [(cols + minVars + 2 * newDims + dim, 1)] else [])
  let minkRows : List (SRow K) := minkC.rows.map (shiftRow cols)
  let ieRows : List (SRow K) := if succInputs then (List.range newDims).map fun dim =>
      [(cols + minVars + 2 * newDims + dim, -1)] else []
  need (minkC.nrows = minkRhs.length)
  let width := cols + 2 * newDims + minVars + (if succInputs then newDims else 0)
  need (∀ r ∈ minkRows, ∀ p ∈ r, p.1 < width)
  let s ← s.setCsr ⟨width, initRows ++ curRows ++ minkRows ++ ieRows⟩ (rows, 0)
  let ie := if succInputs then
      some (rows + 2 * newDims + minkRhs.length, cols + minVars + 2 * newDims) else none
  s.setReachVars newDims (rows + newDims, cols + minVars) (cols + minVars + newDims) ie

/-- Optimise one direction over a list of LPs, keeping maximum and minimum, lputil.py:592-604. -/
def aggDirLoop (S : Solver K) (dir : List K) (lps : List (Lp K)) (acc : Option (K × K)) :
    Except Err (List (Lp K) × Option (K × K)) :=
  match lps with
  | [] => .ok ([], acc)
  | lp :: rest => do
    assert (dir.length = lp.dims)
    let inds := (denseRow dir)
    let columns := inds.map fun p => lp.cur + p.1
    let r1 ← minimize S lp (some (dir.map fun x => -x)) (some columns) true
    let hi := dotList inds (r1.2.getD [])
    let r2 ← minimize S r1.1 (some dir) (some columns) true
    let lo := dotList inds (r2.2.getD [])
    let acc := match acc with
      | none => some (hi, lo)
      | some (h, l) => some (max h hi, min l lo)
    let (rest, acc) ← aggDirLoop S dir rest acc
    return (r2.1 :: rest, acc)

/-- The direction loop of `aggregate`, lputil.py:577-614: returns the template rows.  The norm test
`abs(norm) < 1e-6` is modelled as `sum of squares < tol2`. -/
def aggDirs (S : Solver K) (tol2 : K) (dirs : List (List K)) (lps : List (Lp K)) :
    Except Err (List (Lp K) × List (SRow K × K)) :=
  match dirs with
  | [] => .ok (lps, [])
  | d :: ds => do
    if (d.map fun x => x * x).sum < tol2 then aggDirs S tol2 ds lps
    else
      let (lps, acc) ← aggDirLoop S d lps none
      let (hi, lo) ← needSome acc
      let (lps, rows) ← aggDirs S tol2 ds lps
      return (lps, (denseRow d, hi) :: (negRow (denseRow d), -lo) :: rows)

/-- `aggregate`  lputil.py:563-623.  Returns the argument instances (their objective and
warm-start state change) and the new instance.  `dims` is `direction_matrix.shape[1]`. -/
def aggregate (S : Solver K) (tol2 : K) (lps : List (Lp K)) (dirs : List (List K)) (dims : ℕ)
    (mode : Mode K) : Except Err (List (Lp K) × Lp K) := do
  assert (dims ≤ dirs.length)
  assert (1 < lps.length)
  let (lps, rows) ← aggDirs S tol2 dirs lps
  let rv ← fromConstraints S ⟨dims, rows.map fun r => r.1⟩ (rows.map fun r => r.2) mode
  return (lps, rv)

/-- Column slice `csr[:, cur:cur+dims]` of a row. -/
def sliceCur (cur dims : ℕ) (r : SRow K) : SRow K :=
  (r.filter fun p => decide (cur ≤ p.1) && decide (p.1 < cur + dims)).map
    fun p => (p.1 - cur, p.2)

/-- `hstack([csr[:, :cur], csr[:, cur+dims:]])` of a row. -/
def sliceRest (cur dims : ℕ) (r : SRow K) : SRow K :=
  (r.filter fun p => decide (p.1 < cur)) ++
    (r.filter fun p => decide (cur + dims ≤ p.1)).map fun p => (p.1 - dims, p.2)

/-- The base case of `_aggregate_chull_recursive`: Hagemann's closed convex hull of two
instances, lputil.py:496-561. -/
def chullTwo (dblMax : K) (s1 s2 : Sys K) : Except Err (Sys K) := do
  let dims := s1.dims
  assert (s2.dims = dims)
  let n1 := s1.numCols - dims
  let n2 := s2.numCols - dims
  let rhs1 := s1.getRhs dblMax
  let rhs2 := s2.getRhs dblMax
  let s ← ({} : Sys K).addRowsWithTypes (s1.getTypes ++ s2.getTypes)
    (rhs1 ++ List.replicate rhs2.length 0)
  let names := (List.range dims).map (fun i => s!"A1_{i}") ++
    (List.range dims).map (fun i => s!"A2_{i}") ++ (List.range n1).map (fun i => s!"L1_{i}") ++
    (List.range n2).map (fun i => s!"L2_{i}") ++ ["a"]
  let s := s.addCols names
  let last := 2 * dims + n1 + n2
  let top : List (SRow K) := s1.rows.map fun r =>
    sliceCur s1.cur dims r.coefs ++ shiftRow dims (sliceCur s1.cur dims r.coefs) ++
      shiftRow (2 * dims) (sliceRest s1.cur dims r.coefs) ++ [(last, r.getRhs dblMax)]
  let s ← s.setCsr ⟨last + 1, top⟩
  let bottom : List (SRow K) := s2.rows.map fun r =>
    shiftRow dims (negRow (sliceCur s2.cur dims r.coefs)) ++
      shiftRow (2 * dims + n1) (sliceRest s2.cur dims r.coefs) ++ [(last, -(r.getRhs dblMax))]
  let s ← s.setCsr ⟨last + 1, bottom⟩ (top.length, 0)
  return { s with dims := dims, cur := 0 }

/-- Clone an instance and add the redundant row `0 * x <= 1`, lputil.py:458-464. -/
def cloneComplete (lp : Lp K) : Except Err (Lp K) := do
  let lp ← lp.clone
  return { lp with toSys := lp.toSys.addRowsLE [1] }

/-- Take a snapshot: rebuild with `from_constraints` from the left-most columns,
lputil.py:468-475. -/
def snapshot (S : Solver K) (dblMax : K) (s : Sys K) (mode : Mode K) : Except Err (Lp K) :=
  fromConstraints S s.getFull (s.getRhs dblMax) mode (some s.getTypes) (some s.names) (some s.dims)

/-- `aggregate_chull` with `_aggregate_chull_recursive`  lputil.py:447-561. -/
def aggregateChull (S : Solver K) (dblMax : K) (lps : List (Lp K)) (mode : Mode K) :
    Except Err (Lp K) :=
  match lps with
  | [] => .error .assertion
  | [lp] => lp.clone
  | [lp1, lp2] => do
    let c1 ← cloneComplete lp1
    let c2 ← cloneComplete lp2
    let s ← chullTwo dblMax c1.toSys c2.toSys
    snapshot S dblMax s mode
  | l1 :: l2 :: l3 :: rest => do
    let cs ← (l1 :: l2 :: l3 :: rest).attach.mapM fun x => cloneComplete x.1
    if h : cs.length = (l1 :: l2 :: l3 :: rest).length then
      let mid := cs.length / 2
      let a ← aggregateChull S dblMax (cs.take mid) mode
      let b ← aggregateChull S dblMax (cs.drop mid) mode
      let r ← aggregateChull S dblMax [a, b] mode
      snapshot S dblMax r.toSys mode
    else .error .assertion
termination_by lps.length
decreasing_by
  all_goals simp_all
  all_goals omega

/-- `get_box_center`  lputil.py:843-873.  `none` if some LP was infeasible. -/
def boxCenterLoop (S : Solver K) (lp : Lp K) (fuel dim : ℕ) :
    Except Err (Lp K × Option (List K)) :=
  match fuel with
  | 0 => .ok (lp, some [])
  | fuel + 1 => do
    let unit (a : K) : List K := (List.range lp.dims).map fun i => if i = dim then a else 0
    let r1 ← minimize S lp (some (unit 1)) (some [lp.cur + dim]) false
    let r2 ← minimize S r1.1 (some (unit (-1))) (some [lp.cur + dim]) false
    match r1.2, r2.2 with
    | some lo, some hi =>
      let (lp, rest) ← boxCenterLoop S r2.1 fuel (dim + 1)
      return (lp, rest.map fun l => ((lo.getD 0 0 + hi.getD 0 0) / 2) :: l)
    | _, _ => return (r2.1, none)

/-- `get_box_center`  lputil.py:843-873 -/
def getBoxCenter (S : Solver K) (lp : Lp K) : Except Err (Lp K × Option (List K)) :=
  boxCenterLoop S lp lp.dims 0

/-- `is_point_in_lpi`  lputil.py:1024-1058 -/
def isPointInLpi (S : Solver K) (pt : List K) (lp : Lp K) : Except Err Bool := do
  assert (pt.length ≤ lp.dims)
  let csr : Csr K := ⟨pt.length, (List.range pt.length).flatMap fun i => [[(i, 1)], [(i, -1)]]⟩
  let rhs := pt.flatMap fun x => [x, -x]
  let c ← lp.clone
  let s ← addCurtimeConstraints c.toSys csr rhs
  let r ← isFeasible S { c with toSys := s }
  return r.2

/-- The loop body list of `compute_radius_inf`: (dimension, sign). lputil.py:1069-1071 -/
def radiusDirs (dims : ℕ) : List (ℕ × K) :=
  (List.range dims).flatMap fun n => [(n, 1), (n, -1)]

/-- The loop of `compute_radius_inf`, lputil.py:1067-1077.  Note `lp_result[n]`: the code reads
column `n` of the LP, not `cur_vars_offset + n`. -/
def radiusLoop (S : Solver K) (lp : Lp K) (ds : List (ℕ × K)) (acc : Option K) :
    Except Err (Lp K × Option K) :=
  match ds with
  | [] => .ok (lp, acc)
  | (n, sgn) :: ds => do
    let dir : List K := (List.range lp.dims).map fun d => if n = d then sgn else 0
    let r ← minimize S lp (some dir) none true
    let x := |(r.2.getD []).getD n 0|
    radiusLoop S r.1 ds (some (match acc with | none => x | some m => max m x))

/-- `compute_radius_inf`  lputil.py:1060-1077 (`none` stands for the initial `-inf`) -/
def computeRadiusInf (S : Solver K) (lp : Lp K) : Except Err (Lp K × Option K) :=
  radiusLoop S lp (radiusDirs lp.dims) none

/-- The constraint blocks of `minkowski_sum`, lputil.py:1123-1133: each system's rows shifted to
its columns. -/
def minkBlocks (off : ℕ) (ss : List (Sys K)) : List (SRow K) :=
  match ss with
  | [] => []
  | s :: ss => s.rows.map (fun r => shiftRow off r.coefs) ++ minkBlocks (off + s.numCols) ss

/-- The `-1` entries of the sum rows of `minkowski_sum` for dimension `d`, lputil.py:1110-1121. -/
def minkSumRow (off : ℕ) (ss : List (Sys K)) (d : ℕ) : SRow K :=
  match ss with
  | [] => []
  | s :: ss => (off + s.cur + d, -1) :: minkSumRow (off + s.numCols) ss d

/-- `minkowski_sum`  lputil.py:1079-1140 (column names, which nothing reads, are simplified) -/
def minkowskiSum (S : Solver K) (dblMax : K) (lps : List (Lp K)) (mode : Mode K) :
    Except Err (Lp K) := do
  let first ← needSome lps.head?
  let dims := first.dims
  assert (∀ lp ∈ lps, lp.dims = dims)
  let ss := lps.map fun lp => lp.toSys
  let rhs := List.replicate dims 0 ++ ss.flatMap (Sys.getRhs dblMax)
  let types := List.replicate dims RowType.fx ++ ss.flatMap Sys.getTypes
  let ncols := dims + (ss.map Sys.numCols).sum
  let names := (List.range ncols).map fun n => s!"c{n}"
  let sumRows := (List.range dims).map fun d => (d, 1) :: minkSumRow dims ss d
  fromConstraints S ⟨ncols, sumRows ++ minkBlocks dims ss⟩ rhs mode (some types) (some names)
    (some dims)

/-- `from_input_constraints`  lputil.py:1142-1190 -/
def fromInputConstraints (S : Solver K) (b u : Csr K) (uRhs : List K) (mode : Mode K) :
    Except Err (Lp K) := do
  let dims := b.nrows
  let rhs := List.replicate dims 0 ++ uRhs
  let types := List.replicate dims RowType.fx ++ List.replicate u.nrows RowType.up
  let names := (List.range dims).map (fun n => s!"c{n}") ++
    (List.range b.ncols).map fun n => s!"u{n}"
  let bRows := (List.range dims).map fun d => (d, -1) :: shiftRow dims (b.row d)
  let uRows := u.rows.map (shiftRow dims)
  need (∀ r ∈ uRows, ∀ p ∈ r, p.1 < dims + b.ncols)
  fromConstraints S ⟨dims + b.ncols, bRows ++ uRows⟩ rhs mode (some types) (some names) (some dims)

end Hylaa
