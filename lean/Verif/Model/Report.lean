import Verif.Model.Util

/-!
# The timing report

`Timers.reset`, the names and descendants of a timer, and the lines `Timers.print_stats` prints.
Text formatting (two decimals, capital first letter, indentation) is left out: a printed line is the
numbers in it and its colour.
-/

namespace Hylaa

section
variable {K : Type} [Field K] [LinearOrder K]

/-- `Timers.reset`: the old objects are dropped (they keep their positions here, unreachable).
timerutil.py:96-101 -/
def Timers.reset (s : Timers K) : Timers K := { s with top := none, stack := [] }

/-- `TimerData.full_name`.  timerutil.py:52-58.  `fuel` bounds the number of ancestors: with the length
of the heap it never runs out (`C64_full_name`). -/
def Timers.fullName (s : Timers K) : ℕ → ℕ → Except Err String
  | 0, _ => .error .runtime
  | fuel + 1, t => do
    let d ← needSome s.heap[t]?
    (match d.parent with
      | none => return d.name
      | some p => do
        let q ← s.fullName fuel p
        return q ++ "." ++ d.name)

/-- `TimerData.get_children_recursive`: the timer itself if it has the name, then the answers of its
children.  timerutil.py:39-50.  `fuel` bounds the depth, as above. -/
def Timers.descendants (s : Timers K) (name : String) : ℕ → ℕ → Except Err (List ℕ)
  | 0, _ => .error .runtime
  | fuel + 1, t => do
    let d ← needSome s.heap[t]?
    let l ← d.children.mapM (s.descendants name fuel)
    return (if name = d.name then [t] else []) ++ l.flatten

/-- How a line is printed: grey, normal or bold.  timerutil.py:164-178 -/
inductive Shade
  | grey | normal | bold
deriving DecidableEq

/-- The choice of the colour from a percentage.  timerutil.py:156-157, 164-178, 206-220 -/
def shadeOf (percent : K) : Shade :=
  if percent < 5 then .grey else if 50 < percent then .bold else .normal

/-- The numbers in one printed line.  timerutil.py:190-191, 224-225 -/
inductive StatLine (K : Type)
  | timer (level : ℕ) (name : String) (calls : ℕ) (total : K) (percent : Option K) (shade : Shade)
  | other (level : ℕ) (secs percent : K) (shade : Shade)
deriving DecidableEq

/-- The share of the parent's time; nothing for the outermost timer (ZeroDivisionError if the parent has
no time).  timerutil.py:183-188 -/
def Timers.percentOf (s : Timers K) (d : TimerData K) : Except Err (Option K) :=
  match d.parent with
  | none => .ok none
  | some p => do
    let e ← needSome s.heap[p]?
    need (e.total ≠ 0)
    return some (100 * d.total / e.total)

/-- The `Other` line of a timer with children; its colour comes from `other / total_time`, without the
factor 100.  timerutil.py:200-225 -/
def otherLine (d : TimerData K) (level : ℕ) (childSecs all : K) : Except Err (List (StatLine K)) :=
  if d.children = [] then .ok []
  else do
    need (d.total ≠ 0)
    return [.other (level + 1) (d.total - childSecs) (100 * (d.total - childSecs) / d.total)
      (shadeOf ((d.total - childSecs) / all))]

/-- `Timers.print_stats_recursive`: the lines printed; those printed before an exception are not kept.
timerutil.py:152-225 -/
def Timers.statLines (s : Timers K) : ℕ → ℕ → ℕ → K → Except Err (List (StatLine K))
  | 0, _, _, _ => .error .runtime
  | fuel + 1, t, level, total => do
    let d ← needSome s.heap[t]?
    let all := if level = 0 then d.total else total
    need (all ≠ 0)
    need (d.start = none)
    let pc ← s.percentOf d
    let ls ← d.children.mapM fun c => s.statLines fuel c (level + 1) all
    let secs ← d.children.mapM fun c => do
      let e ← needSome s.heap[c]?
      return e.total
    let o ← otherLine d level secs.sum all
    return .timer level d.name d.calls d.total pc (shadeOf (100 * d.total / all)) :: (ls.flatten ++ o)

/-- `Timers.print_stats` (AttributeError if no timer was ever started).  timerutil.py:146-150 -/
def Timers.printStats (s : Timers K) : Except Err (List (StatLine K)) := do
  let t ← needSome s.top
  s.statLines (s.heap.length + 1) t 0 0

end

end Hylaa
