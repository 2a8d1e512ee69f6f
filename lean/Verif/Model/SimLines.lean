import Verif.Model.Sim
import Verif.Model.Plot

/-!
# Drawn simulation lines (hylaa/plotutil.py:238-321, 616-656)

The lines `result.sim_lines` that `Core.simulate` returns, with one `do_step` per plot (`run_to_completion`, or
`anim_func` with `draw_stride = 1`).  The markers and the `Line2D` objects show the same points and are left out.
-/

namespace Hylaa
variable {K : Type} [Field K] [LinearOrder K]

/-- `settings.xdim_dir`, `ydim_dir` per subplot and the step size, plotutil.py:623, 631 -/
structure SimPlot (K : Type) where
  dims : List (PlotDim K × PlotDim K)
  step : K

/-- The simulation, `DrawnShapes.cur_sim_lines` of each subplot and `result.sim_lines` (per subplot one list of lines
per `commit_cur_sims`). -/
structure SimDraw (K : Type) where
  sim : SimSt K
  lines : List (List (List (K × K)))
  done : List (List (List (List (K × K))))

/-- Nothing drawn, plotutil.py:150, 646-651 -/
def SimDraw.new (P : SimPlot K) (waiting : List (Sim K)) : SimDraw K :=
  ⟨{ waiting := waiting }, P.dims.map fun _ => [], P.dims.map fun _ => []⟩

/-- `plot_pts` of one subplot, plotutil.py:624-634 -/
def plotPts (P : SimPlot K) (cur : List (Option (Sim K))) (d : PlotDim K × PlotDim K) :
    Except Err (List (Option (K × K))) :=
  cur.mapM fun o => match o with
    | none => .ok none
    | some s => do
      let p ← ptToPlotXy s.pt d.1 d.2 ((s.steps : K) * P.step)
      return some p

/-- Appending the points, plotutil.py:290-294: a line that does not exist raises. -/
def appendPts : List (List (K × K)) → List (Option (K × K)) → Except Err (List (List (K × K)))
  | ls, [] => .ok ls
  | [], none :: ps => appendPts [] ps
  | [], some _ :: _ => .error .runtime
  | l :: ls, p :: ps => do
    let r ← appendPts ls ps
    return (l ++ p.toList) :: r

/-- `DrawnShapes.set_cur_sim`  plotutil.py:273-294 -/
def setCurSim (ls : List (List (K × K))) (ps : List (Option (K × K))) : Except Err (List (List (K × K))) :=
  appendPts (if ls = [] then ps.map fun _ => [] else ls) ps

/-- `PlotManager.plot_current_sim`  plotutil.py:616-636 -/
def SimDraw.plot (P : SimPlot K) (D : SimDraw K) : Except Err (SimDraw K) :=
  if D.sim.cur = [] then .ok D else do
    let ls ← (D.lines.zip P.dims).mapM fun p => do
      let ps ← plotPts P D.sim.cur p.2
      setCurSim p.1 ps
    return { D with lines := ls }

/-- `PlotManager.commit_cur_sims`  plotutil.py:642-656, 238-271 -/
def SimDraw.commit (D : SimDraw K) : SimDraw K :=
  { D with lines := D.lines.map fun _ => [], done := (D.done.zip D.lines).map fun p => p.1 ++ [p.2] }

/-- One round of `run_to_completion`, plotutil.py:968-979: `do_step_sim` commits the lines when the last active
simulation has ended (core.py:570-573: then, and only then, `sim_states` becomes empty), then the active simulations are plotted. -/
def SimDraw.round (C : SimEnv K) (P : SimPlot K) (D : SimDraw K) : Except Err (SimDraw K) := do
  let σ ← simStep C D.sim
  SimDraw.plot P (if D.sim.cur ≠ [] ∧ σ.cur = [] then { D.commit with sim := σ } else { D with sim := σ })

/-- `n` rounds. -/
def SimDraw.rounds (C : SimEnv K) (P : SimPlot K) : ℕ → SimDraw K → Except Err (SimDraw K)
  | 0, D => .ok D
  | n + 1, D => do
    let D ← D.round C P
    SimDraw.rounds C P n D

/-- `commit_cur_sims` with the paths it makes: matplotlib refuses a path without points (ValueError).
plotutil.py:254-256 -/
def SimDraw.commitPaths (D : SimDraw K) : Except Err (SimDraw K) := do
  need (∀ ls ∈ D.lines, ∀ l ∈ ls, l ≠ [])
  return D.commit

/-- One `do_step`, without plotting.  plotutil.py:806, core.py:570-573 -/
def SimDraw.step (C : SimEnv K) (D : SimDraw K) : Except Err (SimDraw K) := do
  let σ ← simStep C D.sim
  (if D.sim.cur ≠ [] ∧ σ.cur = [] then do
    let D ← D.commitPaths
    return { D with sim := σ }
  else .ok { D with sim := σ })

/-- `for _ in range(draw_stride)`  plotutil.py:805-806 -/
def SimDraw.strides (C : SimEnv K) : ℕ → SimDraw K → Except Err (SimDraw K)
  | 0, D => .ok D
  | n + 1, D => do
    let D ← D.step C
    SimDraw.strides C n D

/-- One frame of `anim_func` with `n` steps (`draw_stride`, or fewer if it pauses).  plotutil.py:798-823 -/
def SimDraw.frame (C : SimEnv K) (P : SimPlot K) (n : ℕ) (D : SimDraw K) : Except Err (SimDraw K) := do
  let D ← SimDraw.strides C n D
  SimDraw.plot P D

/-- Frames with these numbers of steps. -/
def SimDraw.frames (C : SimEnv K) (P : SimPlot K) : List ℕ → SimDraw K → Except Err (SimDraw K)
  | [], D => .ok D
  | n :: ns, D => do
    let D ← D.frame C P n
    SimDraw.frames C P ns D

end Hylaa
