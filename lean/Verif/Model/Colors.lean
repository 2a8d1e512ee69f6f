import Verif.Model.Util

/-!
# Colours of the modes (hylaa/plotutil.py:49-129)

matplotlib's table of named colours is a parameter; `random.shuffle` is any function.
-/

namespace Hylaa

variable {K : Type} [Field K] [LinearOrder K]

/-- `matplotlib.colors.cnames` with `to_rgba` (without alpha): names and red, green, blue. -/
abbrev ColorTable (K : Type) := List (String × K × K × K)

/-- `substring in col` -/
def inName (sub col : String) : Bool := decide (sub.toList <:+: col.toList)

/-- Colours that are used for modes.  plotutil.py:77-95 -/
def useColor (c : String × K × K × K) : Bool :=
  !decide ((c.2.1 + c.2.2.1 + c.2.2.2) / 3 > 3 / 4) && !(["white", "yellow"].any fun s => inName s c.1) &&
    !["black", "red", "blue"].contains c.1

/-- `first_colors`  plotutil.py:98 -/
def firstColors : List String := ["lime", "orange", "cyan", "magenta", "green"]

/-- `l.remove(x)` for every `x`: ValueError if it is not there.  plotutil.py:100-101 -/
def removeAll : List String → List String → Except Err (List String)
  | l, [] => .ok l
  | l, x :: xs => do
    need (x ∈ l)
    removeAll (l.erase x) xs

/-- `ModeColors.init_colors`: `all_colors`.  plotutil.py:71-108 -/
def initColors (shuffle : List String → List String) (t : ColorTable K) : Except Err (List String) := do
  let r ← removeAll ((t.filter useColor).map fun c => c.1) firstColors
  return firstColors ++ shuffle r

/-- `mode_to_color.get(mode_name)` -/
def colorOf (d : List (String × String)) (mode : String) : Option String :=
  (d.find? fun e => e.1 == mode).map fun e => e.2

/-- The name of the colour in `get_edge_face_colors`, and the new `mode_to_color` (ZeroDivisionError if there are no
colours).  plotutil.py:117-122 -/
def pickColor (all : List String) (d : List (String × String)) (mode : String) :
    Except Err (String × List (String × String)) :=
  match colorOf d mode with
  | some c => .ok (c, d)
  | none => do
    need (all ≠ [])
    let c ← needSome all[d.length % all.length]?
    return (c, d ++ [(mode, c)])

/-- `ModeColors.lighter`  plotutil.py:60-63 -/
def lighter (c : K × K × K) : K × K × K := ((2 + c.1) / 3, (2 + c.2.1) / 3, (2 + c.2.2) / 3)

/-- `ModeColors.get_edge_face_colors`: face and edge colour, and the new `mode_to_color`.  plotutil.py:110-129 -/
def edgeFace (t : ColorTable K) (all : List String) (d : List (String × String)) (mode : String) :
    Except Err (((K × K × K) × (K × K × K)) × List (String × String)) := do
  let r ← pickColor all d mode
  let e ← needSome ((t.find? fun c => c.1 == r.1).map fun c => c.2)
  return ((lighter e, e), r.2)

/-- A sequence of calls: the answers and the last `mode_to_color`. -/
def edgeFaces (t : ColorTable K) (all : List String) : List (String × String) → List String →
    Except Err (List ((K × K × K) × (K × K × K)) × List (String × String))
  | d, [] => .ok ([], d)
  | d, m :: ms => do
    let r ← edgeFace t all d m
    let q ← edgeFaces t all r.2 ms
    return (r.1 :: q.1, q.2)

end Hylaa
