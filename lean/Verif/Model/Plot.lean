import Verif.Model.Solver
import Verif.Model.Trace

/-!
# Plot vertices (hylaa/lpplot.py, hylaa/kamenev.py)

`scipy.spatial.ConvexHull`, `np.linalg.svd` and the points at which Kamenev's loop stops are left
to arbitrary oracles; `plot_vecs` is only used by code that is commented out and is dropped.
-/

namespace Hylaa
section
variable {K : Type} [Field K] [LinearOrder K]

/-- A plot dimension: an integer, an `np.ndarray` direction, or `None` (time).  lpplot.py:41 -/
inductive PlotDim (K : Type)
  | idx (i : ℕ)
  | dir (d : List K)
  | time

/-- `np.dot(a, b)` of two vectors: different lengths raise. -/
def npDot (a b : List K) : Except Err K :=
  if a.length = b.length then .ok ((a.zip b).map fun p => p.1 * p.2).sum else .error .runtime

/-- Truth value of an `np.ndarray`: only defined for at most one element. -/
def arrayTruth (d : List K) : Except Err Bool :=
  match d with
  | [] => .ok false
  | [a] => .ok (decide (a ≠ 0))
  | _ => .error .runtime

/-- The `elif xdim: ... np.dot(pt, xdim)` branch of `pt_to_plot_xy`, lpplot.py:26-28, 32-34. -/
def dirCoord (pt d : List K) (t : K) : Except Err K := do
  let b ← arrayTruth d
  if b then npDot pt d else .ok t

/-- The x half of `pt_to_plot_xy`, lpplot.py:22-28 -/
def plotX (pt : List K) (xdim : PlotDim K) (t : K) : Except Err K :=
  match xdim with
  | .idx i => needSome pt[i]?
  | .dir d => dirCoord pt d t
  | .time => .ok t

/-- The y half of `pt_to_plot_xy`, lpplot.py:22, 30-34: `ydim and isinstance(ydim, int)`, so that
the integer 0 falls through to `elif ydim`, which is also false, and `y` stays the time. -/
def plotY (pt : List K) (ydim : PlotDim K) (t : K) : Except Err K :=
  match ydim with
  | .idx 0 => .ok t
  | .idx (i + 1) => needSome pt[i + 1]?
  | .dir d => dirCoord pt d t
  | .time => .ok t

/-- `pt_to_plot_xy`  lpplot.py:17-36 -/
def ptToPlotXy (pt : List K) (xdim ydim : PlotDim K) (t : K) : Except Err (K × K) := do
  let x ← plotX pt xdim t
  let y ← plotY pt ydim t
  return (x, y)

/-- `columns=[lpi.cur_vars_offset + n for n in range(lpi.dims)]`  lpplot.py:77 -/
def curColumns (lp : Lp K) : List ℕ := (List.range lp.dims).map fun n => lp.cur + n

/-- `lpi.set_minimize_direction(d); res = lpi.minimize(columns=...)`  lpplot.py:76-77, 100-101, 137-139 -/
def minPoint (S : Solver K) (lp : Lp K) (d : List K) : Except Err (Lp K × List K) := do
  let lp1 ← lp.setMinDir d
  let r ← minimize S lp1 none (some (curColumns lp)) true
  let l ← needSome r.2
  return (r.1, l)

/-- The direction of a plot dimension, lpplot.py:73-74, 97-98 (a 0/1 vector for an integer). -/
def plotDir (dims : ℕ) (d : PlotDim K) : List K :=
  match d with
  | .idx i => (List.range dims).map fun k => if k = i then 1 else 0
  | .dir l => l
  | .time => []

/-- The two optimisations of a time plot, lpplot.py:76-82, 100-106: least and largest value along `d`. -/
def extremes (S : Solver K) (lp : Lp K) (d : List K) : Except Err (Lp K × K × K) := do
  let r1 ← minPoint S lp d
  let lo ← npDot d r1.2
  let r2 ← minPoint S r1.1 (d.map fun a => -1 * a)
  let hi ← npDot d r2.2
  return (r2.1, lo, hi)

/-- The corner list of a time plot, lpplot.py:84-93, before the wrap-around; `pt t v` makes one
vertex (`[t, v]`, or `[v, t]` in the `ydim is None` branch, lpplot.py:108-117). -/
def timeCorners {P : Type} (tol : K) (pt : K → K → P) (t0 t1 lo hi : K) : List P :=
  [pt t0 lo] ++
    (if tol < |lo - hi| then [pt t0 hi] ++ (if tol < |t0 - t1| then [pt t1 hi] else []) else []) ++
    (if tol < |t0 - t1| then [pt t1 lo] else [])

/-- What `ConvexHull(verts)` returns: the facets (`simplices` with `equations` as normal and right
hand side) and the `vertices` in order. -/
structure HullOut (K : Type) where
  facets : List (List ℕ × List K × K)
  vertices : List ℕ

/-- The numerical helpers of kamenev.py, as arbitrary oracles: `_get_orthonormal_rank`
(kamenev.py:16-33, an SVD; its `None` answer, a vector that is then used, raises), `ConvexHull`, and `np.allclose`. -/
structure Geom (K : Type) where
  orth : List (List K) → List K × ℕ
  hull : List (List K) → Except Err (HullOut K)
  close : List K → List K → Bool

/-- A support point function with its state (the LP it optimises). -/
abbrev Supp (K : Type) (σ : Type) := σ → List K → Except Err (σ × List K)

/-- A unit vector with entry `a` at `d`. -/
def axis (dims d : ℕ) (a : K) : List K := (List.range dims).map fun i => if i = d then a else 0

/-- The loop of `_find_two_points`, kamenev.py:48-63, from dimension `d` on. -/
def twoPointsLoop {σ : Type} (G : Geom K) (dims : ℕ) (f : Supp K σ) (fuel d : ℕ) (s : σ)
    (pts : List (List K)) : Except Err (σ × List (List K)) :=
  match fuel with
  | 0 => .ok (s, pts)
  | fuel + 1 => do
    let r1 ← f s (axis dims d (-1))
    assert (r1.2.length = dims)
    let r2 ← f r1.1 (axis dims d 1)
    if G.close r1.2 r2.2 then twoPointsLoop G dims f fuel (d + 1) r2.1 [r1.2]
    else .ok (r2.1, [r1.2, r2.2])

/-- `_find_two_points`  kamenev.py:40-65 -/
def findTwoPoints {σ : Type} (G : Geom K) (dims : ℕ) (f : Supp K σ) (s : σ) :
    Except Err (σ × List (List K)) := twoPointsLoop G dims f dims 0 s []

/-- Vector subtraction, kamenev.py:78 -/
def vsub (a b : List K) : List K := List.zipWith (fun x y => x - y) a b

/-- The loop of `_find_init_simplex`, kamenev.py:84-111. -/
def simplexLoop {σ : Type} (G : Geom K) (f : Supp K σ) (p0 : List K) (fuel : ℕ) (s : σ)
    (vecs simplex : List (List K)) : Except Err (σ × List (List K)) :=
  match fuel with
  | 0 => .ok (s, simplex)
  | fuel + 1 => do
    let o := G.orth vecs
    let r1 ← f s o.1
    if o.2 < (G.orth (vecs ++ [vsub r1.2 p0])).2 then
      simplexLoop G f p0 fuel r1.1 (vecs ++ [vsub r1.2 p0]) (simplex ++ [r1.2])
    else do
      let r2 ← f r1.1 (o.1.map fun a => -1 * a)
      if o.2 < (G.orth (vecs ++ [vsub r2.2 p0])).2 then
        simplexLoop G f p0 fuel r2.1 (vecs ++ [vsub r2.2 p0]) (simplex ++ [r2.2])
      else simplexLoop G f p0 fuel r2.1 (vecs ++ [o.1]) simplex

/-- `_find_init_simplex`  kamenev.py:67-115 -/
def findInitSimplex {σ : Type} (G : Geom K) (dims : ℕ) (f : Supp K σ) (s : σ) :
    Except Err (σ × List (List K)) := do
  let r ← findTwoPoints G dims f s
  (match r.2 with
  | [p0, p1] => simplexLoop G f p0 (dims - 1) r.1 [vsub p1 p0] [p0, p1]
  | _ => .ok r)

/-- The loop over the facets of the current hull, kamenev.py:158-195: facets without a new vertex
are skipped; a support point at least `eps` outside, and not close to one already added, is new. -/
def facetLoop {σ : Type} (G : Geom K) (f : Supp K σ) (eps : K) (firstNew : ℕ)
    (fs : List (List ℕ × List K × K)) (s : σ) (new : List (List K)) :
    Except Err (σ × List (List K)) :=
  match fs with
  | [] => .ok (s, new)
  | (sim, nrm, rhs) :: fs =>
    if sim.all (fun i => decide (i < firstNew)) then facetLoop G f eps firstNew fs s new
    else do
      let r ← f s nrm
      let e ← npDot r.2 nrm
      if eps ≤ e - rhs ∧ ¬ new.any (fun p => G.close p r.2) then
        facetLoop G f eps firstNew fs r.1 (new ++ [r.2])
      else facetLoop G f eps firstNew fs r.1 new

/-- The loop of `_v_h_rep_given_init_simplex`, kamenev.py:139-197.  The Python loop has no bound;
`fuel` is the number of rounds, and running out of it is an error here, so that an answer of this
function is an answer of the unbounded loop. -/
def refineLoop {σ : Type} (G : Geom K) (f : Supp K σ) (eps : K) (fuel : ℕ) (s : σ)
    (verts new : List (List K)) : Except Err (σ × List (List K)) :=
  match fuel, new with
  | _, [] => .ok (s, verts)
  | 0, _ => .error .runtime
  | fuel + 1, new => do
    let h ← G.hull (verts ++ new)
    let r ← facetLoop G f eps verts.length h.facets s []
    refineLoop G f eps fuel r.1 (verts ++ new) r.2

/-- `kamenev.get_verts`  kamenev.py:117-129 -/
def kamenevVerts {σ : Type} (G : Geom K) (dims : ℕ) (f : Supp K σ) (eps : K) (fuel : ℕ) (s : σ) :
    Except Err (σ × List (List K)) := do
  let r ← findInitSimplex G dims f s
  if r.2.length < 3 then .ok r else refineLoop G f eps fuel r.1 [] r.2

/-- `d = zeros; for i, dim_index in enumerate(dim_list): d[dim_index] = -vec[i]`  lpplot.py:129-135
(an index out of range raises). -/
def suppDir (dims x y : ℕ) (vec : List K) : Except Err (List K) := do
  assert (vec.length = 2)
  assert (x < dims ∧ y < dims)
  return ((List.replicate dims 0).set x (-(vec.getD 0 0))).set y (-(vec.getD 1 0))

/-- `supp_point_nd`  lpplot.py:126-148 -/
def suppPoint (S : Solver K) (x y : ℕ) : Supp K (Lp K) := fun lp vec => do
  let d ← suppDir lp.dims x y vec
  let r ← minPoint S lp d
  let a ← needSome r.2[x]?
  let b ← needSome r.2[y]?
  return (r.1, [a, b])

/-- One pass of the loop of `bbox_widths`, lpplot.py:175-190 -/
def bboxWidth (S : Solver K) (lp : Lp K) (dim : ℕ) (small : K) : Except Err (Lp K × K) := do
  let r1 ← minimize S lp (some (axis lp.dims dim 1)) (some [lp.cur + dim]) true
  let r2 ← minimize S r1.1 (some (axis lp.dims dim (-1))) (some [lp.cur + dim]) true
  let dx := (r2.2.getD []).getD 0 0 - (r1.2.getD []).getD 0 0
  return (r2.1, if dx < small then small else dx)

/-- `hull = ConvexHull(verts); verts = [[verts[i, 0], verts[i, 1]] for i in hull.vertices]`
lpplot.py:154-158, only with more than two points. -/
def reorder (G : Geom K) (vs : List (List K)) : Except Err (List (List K)) :=
  if 2 < vs.length then do
    let h ← G.hull vs
    h.vertices.mapM fun i => needSome vs[i]?
  else .ok vs

/-- The 2-d branch of `get_verts`, lpplot.py:118-158.  `thousand` is the literal 1000.0. -/
def verts2d (S : Solver K) (G : Geom K) (lp : Lp K) (x y : ℕ) (small thousand : K) (fuel : ℕ) :
    Except Err (Lp K × List (List K)) := do
  let w1 ← bboxWidth S lp x small
  let w2 ← bboxWidth S w1.1 y small
  let r ← kamenevVerts G 2 (suppPoint S x y) (min w1.2 w2.2 / thousand) fuel w2.1
  let vs ← reorder G r.2
  return (r.1, vs)

/-- `verts.append(verts[0])`  lpplot.py:165 -/
def wrap {P : Type} (vs : List P) : Except Err (List P) := do
  let v ← needSome vs.head?
  return vs ++ [v]

/-- The branches of `get_verts`, lpplot.py:61-158.  `xdim is None and ydim is None` never defines
`verts` (and uses `cur_time.min` of a list), so it always raises.  Two dimensions of which one is
an array fail in `bbox_widths` (`1 if i == dim else 0` on an array). -/
def vertsOpen (S : Solver K) (G : Geom K) (lp : Lp K) (xdim ydim : PlotDim K) (t : K × K)
    (tol small thousand : K) (fuel : ℕ) : Except Err (Lp K × List (List K)) :=
  match xdim, ydim with
  | .time, .time => .error .runtime
  | .time, y => do
    let e ← extremes S lp (plotDir lp.dims y)
    return (e.1, timeCorners tol (fun a b => [a, b]) t.1 t.2 e.2.1 e.2.2)
  | x, .time => do
    let e ← extremes S lp (plotDir lp.dims x)
    return (e.1, timeCorners tol (fun a b => [b, a]) t.1 t.2 e.2.1 e.2.2)
  | .idx x, .idx y => verts2d S G lp x y small thousand fuel
  | _, _ => .error .runtime

/-- `get_verts`  lpplot.py:38-167 -/
def getVerts (S : Solver K) (G : Geom K) (lp : Lp K) (xdim ydim : PlotDim K) (t : K × K)
    (tol small thousand : K) (fuel : ℕ) : Except Err (Lp K × List (List K)) := do
  let r ← vertsOpen S G lp xdim ydim t tol small thousand fuel
  let vs ← wrap r.2
  return (r.1, vs)

end
end Hylaa
