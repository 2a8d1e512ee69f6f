import Verif.Model.Util

/-!
# Looking up plotted sets

`PlotData.get_verts_list`, `PlotData.get_plot_data` and the click listener of the interactive plot.  A
subplot's `defaultdict` is the list of its modes with their objects, in the order of insertion.
-/

namespace Hylaa

section
variable {K : Type} [Field K] [LinearOrder K]

/-- `PlotData.get_verts_list`: the first object of the mode (the whole tuple; IndexError if there is none).
result.py:53-56 -/
def getVertsList {V : Type} (data : List (List (String × List (PlotObj V)))) (mode : String) (plot : ℕ) :
    Except Err (PlotObj V) := do
  let d ← needSome data[plot]?
  let e ← needSome ((d.find? fun m => m.1 == mode).map fun m => m.2.head?)
  needSome e

/-- The cross product of `a - p` and `b - p` -/
def crossAt (p a b : K × K) : K := (a.1 - p.1) * (b.2 - p.2) - (a.2 - p.2) * (b.1 - p.1)

/-- `p in Segment(a, b)` -/
def onSide (p a b : K × K) : Bool :=
  decide (crossAt p a b = 0 ∧ (a.1 - p.1) * (b.1 - p.1) + (a.2 - p.2) * (b.2 - p.2) ≤ 0)

/-- The sides of a polygon, the last one back to the first corner. -/
def sidesOf (vs : List (K × K)) : List ((K × K) × (K × K)) :=
  (vs ++ vs.head?.toList).zip (vs ++ vs.head?.toList).tail

/-- sympy's `Polygon.encloses_point` for a convex polygon: the point is on no side, and all sides have the
same answer to "is the cross product negative?".  Simplified: the constructor's removal of repeated and collinear
corners is left out (and with it the points and segments it returns for flat shapes).  result.py:107-111 -/
def polyEncloses (vs : List (K × K)) (p : K × K) : Bool :=
  !((sidesOf vs).any fun s => onSide p s.1 s.2) &&
    (((sidesOf vs).all fun s => decide (crossAt p s.1 s.2 < 0)) ||
      (sidesOf vs).all fun s => !decide (crossAt p s.1 s.2 < 0))

/-- Does `get_plot_data` take this object?  At least four vertices, the first of which repeats the last.
result.py:101-111 -/
def clickTakes (p : K × K) (o : PlotObj (List (K × K))) : Bool :=
  decide (4 ≤ o.verts.length) && polyEncloses o.verts.tail p

/-- The loop over the modes.  result.py:99-118 -/
def clickModes (p : K × K) : List (String × List (PlotObj (List (K × K)))) → Option (PlotObj (List (K × K)))
  | [] => none
  | m :: l => match m.2.find? (clickTakes p) with
    | some o => some o
    | none => clickModes p l

/-- `PlotData.get_plot_data`.  result.py:91-118 -/
def getPlotData (data : List (List (String × List (PlotObj (List (K × K)))))) (p : K × K) (plot : ℕ) :
    Except Err (Option (PlotObj (List (K × K)))) := do
  let d ← needSome data[plot]?
  return clickModes p d

/-- `on_click`: what is printed (TypeError for `None[1:]`); a click outside the subplots prints nothing.
plotutil.py:906-921 -/
def onClick (data : List (List (String × List (PlotObj (List (K × K)))))) (p : K × K) (plot : Option ℕ) :
    Except Err (Option (PlotObj (List (K × K)))) :=
  match plot with
  | none => .ok none
  | some i => do
    let r ← getPlotData data p i
    let o ← needSome r
    return some o

end

end Hylaa
