import Verif.Model.StateSet

/-!
# Approximation models (hylaa/stateset.py:238-344)

`StateSet.apply_approx_model` replaces the set with which a mode is entered by one that is meant to
contain the states during the whole first step.  `math.exp` is a parameter.
-/

namespace Hylaa
variable {K : Type} [Field K] [LinearOrder K]

/-- `csr_matrix(u_constraints)` of a csc matrix, lputil.py:1148-1149.  (Zeros are stored explicitly
here; GLPK does not store them.) -/
def Csc.toCsr (c : Csc K) : Csr K :=
  ⟨c.cols.length, (List.range c.nrows).map fun i =>
    (List.range c.cols.length).map fun j => (j, coefAt (c.cols.getD j []) i)⟩

/-- `sp.sparse.linalg.norm(a_csr, ord=np.inf)`  stateset.py:270: the largest sum of absolute values of
a row. -/
def aNorm (a : Csr K) : K :=
  ((List.range a.nrows).map fun i =>
    ((List.range a.ncols).map fun j => |coefAt (a.row i) j|).sum).foldr max 0

/-- `math.exp`, the step size, and the constants of `apply_approx_lgg`: `tol = 1e-7` (stateset.py:298) and
the limit `1e5` for beta (stateset.py:321). -/
structure LggCfg (K : Type) where
  exp : K → K
  tau : K
  tol : K
  maxBeta : K

/-- `math.exp(tau * a_norm) - 1 - tau * a_norm`  stateset.py:305, 317 -/
def LggCfg.factor (c : LggCfg K) (a : Csr K) : K := c.exp (c.tau * aNorm a) - 1 - c.tau * aNorm a

/-- The Minkowski sum with `tau * V` and the radius of `V`, stateset.py:285-296. -/
def lggSum (S : Solver K) (T : Tols K) (tau : K) (m : Mode K) (one : Lp K) : Except Err (Lp K × K) :=
  match m.inputs with
  | none => .ok (one, 0)
  | some inp => do
    let v ← fromInputConstraints S inp.b inp.uCsc.toCsr inp.uRhs m
    let q ← computeRadiusInf S v
    let r ← needSome q.2
    let s ← scaleWithBm q.1.toSys tau
    let sum ← minkowskiSum S T.dblMax [one, { q.1 with toSys := s }] m
    return (sum, r)

/-- The precomputation of beta and the switch of the time-elapse object, stateset.py:315-327. -/
def SS.lggBetaPart (c : LggCfg K) (d : Dyn K) (m : Mode K) (a : Csr K) (rv : K) (te : TE K) (st : SS K)
    (lp : Lp K) : Except Err (Option (TE K) × SS K) :=
  if c.tol < aNorm a ∧ m.inputs.isSome = true then do
    let beta := c.factor a * (rv / aNorm a)
    assert (c.tol < beta)
    assert (beta < c.maxBeta)
    let lp ← lp.setMinDir (List.replicate lp.dims (-1))
    let te ← useLgg d (some te)
    return (some te, { st with lp := lp, lggBeta := some beta })
  else .ok (some te, { st with lp := lp })

/-- `alpha`, stateset.py:300-305 -/
def LggCfg.alpha (c : LggCfg K) (a : Csr K) (rx rv : K) : K :=
  if aNorm a < c.tol then 0 else c.factor a * (rx + rv / aNorm a)

/-- `apply_approx_lgg`  stateset.py:261-327.  (The radius of a set without dimensions, minus infinity in
Python, is an error here.) -/
def SS.approxLgg (S : Solver K) (T : Tols K) (c : LggCfg K) (d : Dyn K) (m : Mode K)
    (te : Option (TE K)) (st : SS K) : Except Err (Option (TE K) × SS K) := do
  let a ← needSome m.a
  let one ← st.lp.clone
  let g ← getBasis d te 1
  let s ← setBasisMatrix one.toSys g.2.1
  let r ← computeRadiusInf S st.lp
  let rx ← needSome r.2
  let q ← lggSum S T c.tau m { one with toSys := s }
  let ms ← (if c.alpha a rx q.2 = 0 then .ok q.1.toSys else bloat q.1.toSys (c.alpha a rx q.2))
  let lp ← aggregateChull S T.dblMax [r.1, { q.1 with toSys := ms }] m
  st.lggBetaPart c d m a q.2 g.1 lp

/-- The optional input effects of `apply_approx_chull`, stateset.py:252-255 -/
def addInputOpt (s : Sys K) (ie : Option (Mat K)) (m : Mode K) : Except Err (Sys K) :=
  match ie with
  | none => .ok s
  | some ie => addInputEffects s ie m

/-- `apply_approx_chull`  stateset.py:238-259 -/
def SS.approxChull (S : Solver K) (T : Tols K) (d : Dyn K) (m : Mode K) (te : Option (TE K)) (st : SS K) :
    Except Err (Option (TE K) × SS K) := do
  let one ← st.lp.clone
  let g ← getBasis d te 1
  let s ← setBasisMatrix one.toSys g.2.1
  let s ← addInputOpt s g.2.2 m
  let lp ← aggregateChull S T.dblMax [st.lp, { one with toSys := s }] m
  return (some g.1, { st with lp := lp })

/-- `HylaaSettings.APPROX_*`  settings.py:28; `other`: any other number -/
inductive ApproxModel | none | chull | lgg | other
  deriving DecidableEq

/-- `apply_approx_model`  stateset.py:329-344.  An unknown model is ignored: the code asserts a non-empty
string (line 344). -/
def SS.applyApprox (S : Solver K) (T : Tols K) (c : LggCfg K) (d : Dyn K) (m : Mode K) (am : ApproxModel)
    (te : Option (TE K)) (st : SS K) : Except Err (Option (TE K) × SS K) := do
  assert (st.stepIn = 0)
  (match am with
    | .chull => st.approxChull S T d m te
    | .lgg => st.approxLgg S T c d m te
    | .none => .ok (te, st)
    | .other => .ok (te, st))

end Hylaa
