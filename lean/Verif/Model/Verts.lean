import Verif.Model.Plot
import Verif.Model.StateSet

/-!
# Cached vertices of a state set (hylaa/stateset.py:64-68, 145-191)
-/

namespace Hylaa
variable {K : Type} [Field K] [LinearOrder K]

/-- One entry of `settings.xdim_dir` or `ydim_dir`: a plot dimension, or a table by mode name.  stateset.py:170-182 -/
inductive DimSetting (K : Type)
  | plain (d : PlotDim K)
  | byMode (f : String → Option (PlotDim K))

/-- The plot dimension in a mode; a mode that is not in the table fails the assertion.  stateset.py:174-182 -/
def DimSetting.resolve (mode : String) : DimSetting K → Except Err (PlotDim K)
  | .plain d => .ok d
  | .byMode f =>
    match f mode with
    | some d => .ok d
    | none => .error .assertion

/-- What `verts` needs of the plot manager and the settings; the constants are those of `getVerts`. -/
structure VertsCfg (K : Type) where
  solver : Solver K
  geom : Geom K
  step : K
  dims : List (DimSetting K × DimSetting K)
  tol : K
  small : K
  thousand : K
  fuel : ℕ

/-- A state set with its plotting variables `_verts` and, once assigned, `xdim`, `ydim`.  stateset.py:65-68 -/
structure Plotted (K : Type) where
  set : SS K
  cache : Option (List (Option (List (List K)))) := none
  dims : Option (List (PlotDim K × PlotDim K)) := none

/-- The loop that assigns the plot dimensions on the first call, stateset.py:167-182 -/
def resolveDims (mode : String) (l : List (DimSetting K × DimSetting K)) :
    Except Err (List (PlotDim K × PlotDim K)) :=
  l.mapM fun p => do
    let x ← p.1.resolve mode
    let y ← p.2.resolve mode
    return (x, y)

/-- `time_interval`  stateset.py:160-162 -/
def Plotted.times (c : VertsCfg K) (x : Plotted K) : K × K := ((x.set.steps.1 : K) * c.step, (x.set.steps.2 : K) * c.step)

/-- The part of `verts` that computes a missing entry, stateset.py:159-187 -/
def Plotted.compute (c : VertsCfg K) (mode : String) (x : Plotted K) (cache : List (Option (List (List K)))) (k : ℕ) :
    Except Err (Plotted K × List (List K)) := do
  let ds ← (match x.dims with
    | some l => .ok l
    | none => resolveDims mode c.dims)
  let d ← needSome ds[k]?
  let r ← getVerts c.solver c.geom x.set.lp d.1 d.2 (x.times c) c.tol c.small c.thousand c.fuel
  return ({ set := { x.set with lp := r.1 }, cache := some (cache.set k (some r.2)), dims := some ds }, r.2)

/-- `StateSet.verts`  stateset.py:151-191 -/
def Plotted.verts (c : VertsCfg K) (mode : String) (x : Plotted K) (k : ℕ) : Except Err (Plotted K × List (List K)) := do
  let cache := x.cache.getD (List.replicate c.dims.length none)
  let e ← needSome cache[k]?
  (match e with
  | some v => .ok ({ x with cache := some cache }, v)
  | none => x.compute c mode cache k)

/-- `StateSet.step` with the cache, stateset.py:100-149: the cached vertices are dropped if a step was made. -/
def Plotted.step (d : Dyn K) (m : Mode K) (te : Option (TE K)) (x : Plotted K) (target : Option ℕ) :
    Except Err (Option (TE K) × Plotted K) := do
  let r ← x.set.step d m te target
  return (r.1, { x with set := r.2, cache := if target.getD (x.set.stepIn + 1) = x.set.stepIn then x.cache else none })

/-- `intersect_invariant` (core.py:163-198) does not touch the cache. -/
def Plotted.intersect (S : Solver K) (T : Tols K) (m : Mode K) (x : Plotted K) :
    Except Err (Plotted K × Bool) := do
  let r ← x.set.intersectInvariant S T m
  return ({ x with set := r.1 }, r.2.1)

/-- The calls considered by C61. -/
inductive VertsOp
  | verts (k : ℕ)
  | step (target : Option ℕ)

/-- One call; an answer of `verts` is recorded. -/
def Plotted.op (c : VertsCfg K) (d : Dyn K) (m : Mode K) (s : Option (TE K) × Plotted K) :
    VertsOp → Except Err ((Option (TE K) × Plotted K) × Option (List (List K)))
  | .verts k => do
    let r ← s.2.verts c m.name k
    return ((s.1, r.1), some r.2)
  | .step t => do
    let r ← s.2.step d m s.1 t
    return (r, none)

/-- A history of calls. -/
def Plotted.run (c : VertsCfg K) (d : Dyn K) (m : Mode K) : Option (TE K) × Plotted K → List VertsOp →
    Except Err (Option (TE K) × Plotted K)
  | s, [] => .ok s
  | s, o :: os => do
    let r ← Plotted.op c d m s o
    Plotted.run c d m r.1 os

end Hylaa
