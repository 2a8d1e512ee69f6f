import Verif.Model.Util
import Verif.Model.Lp

/-!
# Drawing of state sets (hylaa/plotutil.py, hylaa/stateset.py:193-236)

Colours, line widths and everything matplotlib does with the shapes are left out; what is kept is which path and marker
lists a subplot holds, where a state set finds its paths again, and the stored plot data.
-/

namespace Hylaa
section
variable {K : Type} [Zero K]

/-- A state set when it is plotted: an identity, its step in the mode, and the vertices of each subplot
(`StateSet.verts`, see `SS.verts`).  plotutil.py:323-327 -/
structure Shown (K : Type) where
  state : ℕ
  step : ℕ
  verts : ℕ → List (K × K)

/-- The plot settings that matter here, plotutil.py:329, 667, 671, 736, and the (fixed) mode name of each state set. -/
structure DrawCfg where
  noPlot : Bool
  image : Bool
  store : Bool
  markers : Bool
  nsub : ℕ
  mode : ℕ → String

/-- `DrawnShapes.parent_to_polys` and `parent_to_markers` of each subplot (a missing entry is an empty list),
`StateSet.step_to_paths` of each state set (per step and subplot the collection and the index of the path;
`none` is the `[]` it is padded with), and `result.plot_data`.  plotutil.py:134-147, stateset.py:74-76 -/
structure Drawing (K : Type) where
  polys : ℕ → String → List (List (K × K))
  marks : ℕ → String → List (K × K)
  paths : ℕ → ℕ → Option (List (Option (String × ℕ)))
  data : PlotData (List (K × K))

/-- Nothing drawn yet, plotutil.py:139-141, stateset.py:76, result.py:48-51 -/
def Drawing.new (c : DrawCfg) : Drawing K :=
  ⟨fun _ _ => [], fun _ _ => [], fun _ _ => none, List.replicate c.nsub fun _ => []⟩

/-- Update of a table with two keys. -/
def upd2 {α β γ : Type} [DecidableEq α] [DecidableEq β] (f : α → β → γ) (a : α) (b : β) (v : γ) : α → β → γ :=
  Function.update f a (Function.update (f a) b v)

/-- The path that replaces a deleted one, stateset.py:226-227, 234 -/
def erasedPath : List (K × K) := [(0, 0), (0, 0)]

/-- `StateSet.set_plot_path`  stateset.py:193-209 (the entry of subplot `k`, padded with `[]`) -/
def setPlotPath (l : Option (List (Option (String × ℕ)))) (k : ℕ) (e : String × ℕ) : List (Option (String × ℕ)) :=
  let l := l.getD []
  (l ++ List.replicate (k + 1 - l.length) none).set k (some e)

/-- `DrawnShapes.add_reachable_poly`  plotutil.py:323-363: a marker for small sets, otherwise a path. -/
def Drawing.addPoly (c : DrawCfg) (d : Drawing K) (x : Shown K) (k : ℕ) : Except Err (Drawing K) :=
  if (x.verts k).length ≤ 2 ∧ c.markers = true then do
    let p ← needSome (x.verts k).head?
    return { d with marks := upd2 d.marks k ("mode_" ++ c.mode x.state) (d.marks k ("mode_" ++ c.mode x.state) ++ [p]) }
  else
    .ok { d with polys := upd2 d.polys k (c.mode x.state) (d.polys k (c.mode x.state) ++ [x.verts k]),
                 paths := upd2 d.paths x.state x.step (some (setPlotPath (d.paths x.state x.step) k
                   (c.mode x.state, (d.polys k (c.mode x.state)).length))) }

/-- `PlotManager.add_reachable_poly`  plotutil.py:690-694 -/
def Drawing.addReachable (c : DrawCfg) (d : Drawing K) (x : Shown K) : Except Err (Drawing K) :=
  (List.range c.nsub).foldlM (fun d k => d.addPoly c x k) d

/-- `DrawnShapes._set_named_state`  plotutil.py:212-236, for `cur_state` and `gray_state`: these share the table of
the modes' polygons. -/
def Drawing.setNamed (d : Drawing K) (k : ℕ) (name : String) (l : List (List (K × K))) : Drawing K :=
  { d with polys := upd2 d.polys k name l }

/-- `set_cur_state(None)` in all subplots, plotutil.py:473-478 -/
def Drawing.statePopped (c : DrawCfg) (d : Drawing K) : Drawing K :=
  if c.noPlot then d else (List.range c.nsub).foldl (fun d k => d.setNamed k "cur_state" []) d

/-- What `anim_func` does before each frame, plotutil.py:801-803 -/
def Drawing.frame (c : DrawCfg) (d : Drawing K) : Drawing K :=
  (List.range c.nsub).foldl (fun d k => (d.setNamed k "cur_state" []).setNamed k "gray_state" []) d

/-- `result.plot_data.add_state(state, verts, subplot)`  plotutil.py:667-670, 723-725 -/
def Drawing.store (c : DrawCfg) (d : Drawing K) (x : Shown K) (k : ℕ) : Except Err (Drawing K) :=
  if c.store then do
    let p ← d.data.add (c.mode x.state) ⟨x.verts k, x.state, x.step⟩ k
    return { d with data := p }
  else .ok d

/-- The loop of `plot_current_state`, plotutil.py:665-684; `preds`: the vertices of the sets that were aggregated
(at step 0). -/
def Drawing.showCur (c : DrawCfg) (x : Shown K) (preds : List (ℕ → List (K × K))) (d : Drawing K) (k : ℕ) :
    Except Err (Drawing K) := do
  let d ← d.store c x k
  return if c.noPlot then d else d.setNamed k "cur_state" (x.verts k :: preds.map fun f => f k)

/-- `PlotManager.plot_current_state`  plotutil.py:658-688 -/
def Drawing.plotCurrent (c : DrawCfg) (d : Drawing K) (x : Shown K) (preds : List (ℕ → List (K × K))) :
    Except Err (Drawing K) := do
  let d ← (List.range c.nsub).foldlM (Drawing.showCur c x preds) d
  (if c.noPlot then .ok d else d.addReachable c x)

/-- One state of `add_plotted_states`, plotutil.py:718-725 -/
def Drawing.addOne (c : DrawCfg) (d : Drawing K) (x : Shown K) : Except Err (Drawing K) := do
  let d ← d.addReachable c x
  (List.range c.nsub).foldlM (fun d k => d.store c x k) d

/-- `PlotManager.add_plotted_states`  plotutil.py:713-727 with `highlight_states`, plotutil.py:752-771 -/
def Drawing.addPlotted (c : DrawCfg) (d : Drawing K) (xs : List (Shown K)) : Except Err (Drawing K) :=
  if c.noPlot then .ok d else do
    let d ← xs.foldlM (Drawing.addOne c) d
    return (List.range c.nsub).foldl (fun d k => d.setNamed k "cur_state" (xs.map fun x => x.verts k)) d

/-- The loop of `StateSet.del_plot_path`, stateset.py:229-234, from subplot `k` on: unpacking `[]` raises. -/
def Drawing.erasePaths (d : Drawing K) (k : ℕ) : List (Option (String × ℕ)) →
    Except Err (Drawing K × List (List (K × K)))
  | [] => .ok (d, [])
  | e :: l => do
    let p ← needSome e
    let v ← needSome (d.polys k p.1)[p.2]?
    let r ← Drawing.erasePaths { d with polys := upd2 d.polys k p.1 ((d.polys k p.1).set p.2 erasedPath) } (k + 1) l
    return (r.1, v :: r.2)

/-- `StateSet.del_plot_path`  stateset.py:211-236 -/
def Drawing.delPath (d : Drawing K) (state step : ℕ) : Except Err (Drawing K × Option (List (List (K × K)))) :=
  match d.paths state step with
  | none => .ok (d, none)
  | some l => do
    let r ← Drawing.erasePaths { d with paths := upd2 d.paths state step none } 0 l
    return (r.1, some r.2)

/-- `highlight_states_gray([verts])`  plotutil.py:729-750 -/
def Drawing.highlightGray (c : DrawCfg) (d : Drawing K) (vs : List (List (K × K))) : Except Err (Drawing K) :=
  if c.image then .ok d else
    (List.range c.nsub).foldlM (fun d k => do
      let v ← needSome vs[k]?
      return d.setNamed k "gray_state" [v]) d

/-- `PlotManager.delete_plotted_state`  plotutil.py:696-711 -/
def Drawing.delete (c : DrawCfg) (d : Drawing K) (state step : ℕ) : Except Err (Drawing K) :=
  if c.noPlot then .ok d else do
    let r ← d.delPath state step
    (match r.2 with
    | none => .ok r.1
    | some vs => do
      let p ← (if c.store then r.1.data.remove (c.mode state) state step else .ok r.1.data)
      Drawing.highlightGray c { r.1 with data := p } vs)

/-- The calls a computation makes: `plot_current_state`, `add_plotted_states`, `delete_plotted_state`,
`state_popped` and the clearing before a frame.  core.py:255, deaggregation.py:74-77, plotutil.py:976 -/
inductive DrawOp (K : Type)
  | current (x : Shown K) (preds : List (ℕ → List (K × K)))
  | add (xs : List (Shown K))
  | delete (state step : ℕ)
  | popped
  | frame

/-- One call. -/
def Drawing.op (c : DrawCfg) (d : Drawing K) : DrawOp K → Except Err (Drawing K)
  | .current x preds => d.plotCurrent c x preds
  | .add xs => d.addPlotted c xs
  | .delete s n => d.delete c s n
  | .popped => .ok (d.statePopped c)
  | .frame => .ok (d.frame c)

/-- A history of calls. -/
def Drawing.run (c : DrawCfg) (d : Drawing K) (ops : List (DrawOp K)) : Except Err (Drawing K) :=
  ops.foldlM (Drawing.op c) d

end

/-! ### Axis limits -/

section
variable {K : Type} [Field K] [LinearOrder K]

/-- `AxisLimits`  plotutil.py:26-35 -/
structure Limits (K : Type) where
  xmin : K
  xmax : K
  ymin : K
  ymax : K

/-- `actual_limits[subplot]`, `drawn_limits[subplot]` and the limits last given to `set_xlim`, `set_ylim`.
plotutil.py:377-378 -/
structure Axes (K : Type) where
  lim : Limits K
  drawn : Limits K
  shown : Limits K

/-- The loop over the points, plotutil.py:506-517 -/
def Limits.point (l : Limits K) (p : K × K) : Limits K :=
  { xmin := if p.1 < l.xmin then p.1 else l.xmin,
    xmax := if p.1 < l.xmin then l.xmax else if l.xmax < p.1 then p.1 else l.xmax,
    ymin := if p.2 < l.ymin then p.2 else l.ymin,
    ymax := if p.2 < l.ymin then l.ymax else if l.ymax < p.2 then p.2 else l.ymax }

/-- The redrawing part, plotutil.py:522-540; `pad` is the literal `1e-1`. -/
def Axes.redraw (ratio pad : K) (lim : Limits K) : Axes K :=
  let dx := lim.xmax - lim.xmin
  let dy := lim.ymax - lim.ymin
  let d : Limits K := ⟨lim.xmin - dx * ratio, lim.xmax + dx * ratio, lim.ymin - dy * ratio, lim.ymax + dy * ratio⟩
  { lim := lim, drawn := d,
    shown := { xmin := if d.xmin = d.xmax then d.xmin - pad else d.xmin,
               xmax := if d.xmin = d.xmax then d.xmax + pad else d.xmax,
               ymin := if d.ymin = d.ymax then d.ymin - pad else d.ymin,
               ymax := if d.ymin = d.ymax then d.ymax + pad else d.ymax } }

/-- `lim.xmin < drawn.xmin or ...`  plotutil.py:519 -/
def Limits.outside (l d : Limits K) : Prop := l.xmin < d.xmin ∨ d.xmax < l.xmax ∨ l.ymin < d.ymin ∨ d.ymax < l.ymax

instance (l d : Limits K) : Decidable (l.outside d) := by unfold Limits.outside; infer_instance

/-- `PlotManager.update_axis_limits` for one subplot, plotutil.py:480-540; an empty first list raises. -/
def updateAxes (ratio pad : K) (s : Option (Axes K)) (pts : List (K × K)) : Except Err (Axes K) :=
  match s with
  | none => do
    let p ← needSome pts.head?
    return Axes.redraw ratio pad (pts.foldl Limits.point ⟨p.1, p.1, p.2, p.2⟩)
  | some a =>
    let lim := pts.foldl Limits.point a.lim
    .ok (if lim.outside a.drawn ∧ lim.xmin ≠ lim.xmax ∧ lim.ymin ≠ lim.ymax then Axes.redraw ratio pad lim
      else { a with lim := lim })

/-- Calls one after the other. -/
def updateAxesAll (ratio pad : K) : Option (Axes K) → List (List (K × K)) → Except Err (Option (Axes K))
  | s, [] => .ok s
  | s, l :: ls => do
    let a ← updateAxes ratio pad s l
    updateAxesAll ratio pad (some a) ls

end
end Hylaa
