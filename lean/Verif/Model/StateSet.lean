import Verif.Model.TimeElapse
import Verif.Model.Automaton

/-!
# State sets (hylaa/stateset.py) and their continuous evolution

Plotting fields (stateset.py:61-71) are not modelled.
-/

namespace Hylaa
variable {K : Type} [Field K] [LinearOrder K]

/-- `StateSet`  stateset.py:22-73.  `mode` is the mode's position in the automaton; `opList` are the
transitions that created it (positions in the op heap; empty for an initial set). -/
structure SS (K : Type) where
  mode : ℕ
  lp : Lp K
  stepIn : ℕ := 0
  steps : ℕ × ℕ := (0, 0)
  concrete : Bool := true
  opList : List ℕ := []
  invRows : List (Option ℕ) := []
  basis : Option (Mat K) := none
  ies : Option (List (Mat K)) := none
  aggstr : Option String := none
  lggBeta : Option K := none

/-- `np.allclose(basis, identity)` with numpy's tolerances `atol + rtol * |identity|`,
stateset.py:55 -/
def closeToId (atol rtol : K) (n : ℕ) (m : Mat K) : Bool :=
  (List.range n).all fun i => (List.range n).all fun j =>
    decide (|m.e i j - (if i = j then 1 else 0)| ≤ atol + rtol * (if i = j then 1 else 0))

/-- Tolerances used by the library: `check_intersection`'s `tol = 1e-13` (lputil.py:303), numpy's
`allclose` defaults, `aggregate`'s norm bound (squared, lputil.py:586), and the double maximum of
GLPK's row bounds. -/
structure Tols (K : Type) where
  inter : K
  atol : K
  rtol : K
  norm2 : K
  dblMax : K

/-- `StateSet.__init__`  stateset.py:27-73 -/
def SS.make (T : Tols K) (mode : Mode K) (mid : ℕ) (lp : Lp K) (steps : ℕ × ℕ) (opList : List ℕ)
    (concrete : Bool) : Except Err (SS K) :=
  match mode.a with
  | none => .ok { mode := mid, lp := lp, steps := steps, opList := opList, concrete := concrete,
                  invRows := mode.inv.map fun _ => none,
                  ies := mode.inputs.map fun _ => [] }
  | some a => do
    let bm ← getBasisMatrix lp.toSys
    need (bm.nr = a.nrows ∧ bm.nc = a.nrows)
    need (closeToId T.atol T.rtol a.nrows bm = true)
    return { mode := mid, lp := lp, steps := steps, opList := opList, concrete := concrete,
             invRows := mode.inv.map fun _ => none, basis := some (Mat.id a.nrows),
             ies := mode.inputs.map fun _ => [] }

/-- The loop over the intermediate steps' input effects, stateset.py:131-134. -/
def ieLoop (d : Dyn K) (m : Mode K) (lgg : Option K) (te : TE K) (s : Sys K) (ies : List (Mat K))
    (ks : List ℕ) : Except Err (TE K × Sys K × List (Mat K)) :=
  match ks with
  | [] => .ok (te, s, ies)
  | k :: ks => do
    let r ← getBasis d (some te) k
    let ie ← needSome r.2.2
    let s ← addInputEffects s ie m lgg
    ieLoop d m lgg r.1 s (ies ++ [ie]) ks

/-- The input part of `step`, stateset.py:128-139. -/
def SS.stepInputs (d : Dyn K) (m : Mode K) (te : TE K) (st : SS K) (s : Sys K)
    (ie : Option (Mat K)) (k : ℕ) : Except Err (TE K × Sys K × Option (List (Mat K))) :=
  match ie with
  | none => .ok (te, s, st.ies)
  | some ie => do
    let ies ← needSome st.ies
    let r ← ieLoop d m st.lggBeta te s ies (List.range' (st.stepIn + 1) (k - (st.stepIn + 1)))
    let s ← addInputEffects r.2.1 ie m st.lggBeta
    return (r.1, s, some (r.2.2 ++ [ie]))

/-- `StateSet.step`  stateset.py:100-148: advance to step `target` in the mode (one step by
default), using the mode's time-elapse cache `te`. -/
def SS.step (d : Dyn K) (m : Mode K) (te : Option (TE K)) (st : SS K) (target : Option ℕ) :
    Except Err (Option (TE K) × SS K) :=
  let k := target.getD (st.stepIn + 1)
  if k < st.stepIn then .error .assertion
  else if k = st.stepIn then .ok (te, st)
  else do
    let r ← getBasis d te k
    let s ← setBasisMatrix st.lp.toSys r.2.1
    let q ← st.stepInputs d m r.1 s r.2.2 k
    return (some q.1, { st with lp := { st.lp with toSys := q.2.1 }, basis := some r.2.1,
                                ies := q.2.2, stepIn := k,
                                steps := (st.steps.1 + (k - st.stepIn), st.steps.2 + (k - st.stepIn)) })

/-- `lc.csr.toarray()[0]`  core.py:173 -/
def LinCon.vec (lc : LinCon K) : List K := (List.range lc.ncols).map (coefAt lc.row)

/-- Constrain the set by invariant condition `idx`: a new row, or strengthening the row the same
condition already has.  core.py:172-186, aggdag.py:483-497.  Returns the state and
`is_stronger`. -/
def SS.addInv (S : Solver K) (T : Tols K) (st : SS K) (idx : ℕ) (lc : LinCon K) :
    Except Err (SS K × Bool) := do
  let old ← needSome st.invRows[idx]?
  let bm ← needSome st.basis
  (match old with
    | none => do
      let r ← addInitConstraint st.lp.toSys lc.vec lc.rhs bm st.ies none
      return ({ st with lp := { st.lp with toSys := r.1 }, invRows := st.invRows.set idx (some r.2) },
              false)
    | some row => do
      let r ← tryReplaceInitConstraint S T.dblMax st.lp row lc.vec lc.rhs bm st.ies
      return ({ st with lp := r.1, invRows := st.invRows.set idx (some r.2.1) }, r.2.2))

/-- The loop of `intersect_invariant`, core.py:169-192.  Returns the state, whether it is still
feasible, and the recorded operations (condition index, `is_stronger`). -/
def invLoop (S : Solver K) (T : Tols K) (st : SS K) (idx : ℕ) (lcs : List (LinCon K))
    (ops : List (ℕ × Bool)) : Except Err (SS K × Bool × List (ℕ × Bool)) :=
  match lcs with
  | [] => .ok (st, true, ops)
  | lc :: lcs => do
    let r ← checkIntersection S st.lp lc.negate T.inter
    (if r.2 = some true then do
      let q ← ({ st with lp := r.1 } : SS K).addInv S T idx lc
      let f ← isFeasible S q.1.lp
      (if f.2 then invLoop S T { q.1 with lp := f.1 } (idx + 1) lcs (ops ++ [(idx, q.2)])
       else return ({ q.1 with lp := f.1 }, false, ops ++ [(idx, q.2)]))
    else invLoop S T { st with lp := r.1 } (idx + 1) lcs ops)

/-- `Core.intersect_invariant`  core.py:163-196 -/
def SS.intersectInvariant (S : Solver K) (T : Tols K) (m : Mode K) (st : SS K) :
    Except Err (SS K × Bool × List (ℕ × Bool)) :=
  invLoop S T st 0 m.inv []

end Hylaa
