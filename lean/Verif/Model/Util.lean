import Verif.Model.Mode
import Mathlib.Algebra.Order.Floor.Ring

/-!
# Settings, timers, frozen objects, leak accounting, stored plots

Small stateful utilities.  The clock is an argument of every timer call.
-/

namespace Hylaa

section
variable {K : Type} [Field K] [LinearOrder K]

/-- `HylaaSettings.__init__`: `num_steps = int(math.ceil(max_time / step_size))`
(ZeroDivisionError for step 0).  settings.py:30-34 -/
def numSteps [FloorRing K] (stepSize maxTime : K) : Except Err ℤ := do
  need (stepSize ≠ 0)
  return ⌈maxTime / stepSize⌉

/-! ### Timers -/

/-- `TimerData`  timerutil.py:13-26; timers are named by their position in the heap of timers -/
structure TimerData (K : Type) where
  name : String
  total : K
  calls : ℕ := 0
  start : Option K := none
  parent : Option ℕ := none
  children : List ℕ := []

/-- `Timers`  timerutil.py:84-92; `stack` lists the innermost timer first -/
structure Timers (K : Type) where
  heap : List (TimerData K) := []
  top : Option ℕ := none
  stack : List ℕ := []

/-- `TimerData.get_child`: the first child with that name.  timerutil.py:28-38 -/
def Timers.child (s : Timers K) (p : ℕ) (name : String) : Option ℕ :=
  match s.heap[p]? with
  | none => none
  | some td => td.children.find? fun c => (s.heap[c]?).any fun d => d.name == name

/-- The existing timer `tic` will start, timerutil.py:110-120; a top-level timer with another name is
forgotten -/
def Timers.lookup (s : Timers K) (name : String) : Option ℕ :=
  match s.stack with
  | [] => match s.top with
    | some t => if (s.heap[t]?).any fun d => d.name == name then some t else none
    | none => none
  | p :: _ => s.child p name

/-- Creating the timer object, timerutil.py:123-130.  Returns its position. -/
def Timers.create (s : Timers K) (name : String) : Timers K × ℕ :=
  match s.stack with
  | [] => ({ s with heap := s.heap ++ [{ name := name, total := 0 }], top := some s.heap.length },
      s.heap.length)
  | p :: _ => ({ s with heap := (s.heap.modify p fun d =>
      { d with children := d.children ++ [s.heap.length] }) ++
        [{ name := name, total := 0, parent := some p }] }, s.heap.length)

/-- The timer `tic` starts: an existing one or a new one, timerutil.py:110-130 -/
def Timers.pick (s : Timers K) (name : String) : Timers K × ℕ :=
  match s.lookup name with
  | some t => (s, t)
  | none => s.create name

/-- `Timers.tic`, `TimerData.tic`  timerutil.py:103-133, 60-69 -/
def Timers.tic (s : Timers K) (name : String) (now : K) : Except Err (Timers K) := do
  let r := s.pick name
  let d ← needSome r.1.heap[r.2]?
  need (d.start = none)
  return { r.1 with heap := r.1.heap.modify r.2 fun d => { d with calls := d.calls + 1, start := some now }
                    stack := r.2 :: r.1.stack }

/-- `Timers.toc`, `TimerData.toc`  timerutil.py:135-145, 71-80 -/
def Timers.toc (s : Timers K) (name : String) (now : K) : Except Err (Timers K) := do
  let t ← needSome s.stack.head?
  let d ← needSome s.heap[t]?
  assert (d.name = name)
  let t0 ← needSome d.start
  return { s with heap := s.heap.modify t fun d => { d with total := d.total + (now - t0), start := none }
                  stack := s.stack.tail }

/-- A call of `Timers.tic` or `Timers.toc` at a time. -/
inductive TimerCall (K : Type)
  | tic (name : String) (now : K)
  | toc (name : String) (now : K)

/-- A sequence of calls. -/
def Timers.run (s : Timers K) : List (TimerCall K) → Except Err (Timers K)
  | [] => .ok s
  | .tic n t :: l => do
    let s ← s.tic n t
    s.run l
  | .toc n t :: l => do
    let s ← s.toc n t
    s.run l

end

/-! ### Frozen objects -/

/-- An instance of a subclass of `Freezable`: instance attributes, and the attributes of its class
(with `_frozen = False` among them).  `frozen` is the truth value of an attribute value.  util.py:10-23 -/
structure FObj (V : Type) where
  attrs : String → Option V
  cls : String → Option V

/-- Attribute lookup: instance, then class. -/
def FObj.get {V : Type} (o : FObj V) (k : String) : Option V := (o.attrs k).or (o.cls k)

/-- `hasattr` -/
def FObj.has {V : Type} (o : FObj V) (k : String) : Bool := (o.get k).isSome

/-- `object.__setattr__` -/
def FObj.put {V : Type} (o : FObj V) (k : String) (v : V) : FObj V :=
  { o with attrs := Function.update o.attrs k (some v) }

/-- `Freezable.__setattr__`; `truthy` is Python's truth test.  util.py:19-23 -/
def FObj.set {V : Type} (truthy : V → Bool) (o : FObj V) (k : String) (v : V) : Except Err (FObj V) := do
  let f ← needSome (o.get "_frozen")
  (if truthy f && !o.has k then .error .runtime else .ok (o.put k v))

/-- `freeze_attrs`: `self._frozen = True`.  util.py:15-17 -/
def FObj.freeze {V : Type} (truthy : V → Bool) (tt : V) (o : FObj V) : Except Err (FObj V) :=
  o.set truthy "_frozen" tt

/-- A sequence of assignments, each with its exception caught. -/
def FObj.sets {V : Type} (truthy : V → Bool) (o : FObj V) : List (String × V) → FObj V
  | [] => o
  | p :: l => FObj.sets truthy (match o.set truthy p.1 p.2 with
      | .ok o' => o'
      | .error _ => o) l

/-! ### Leak accounting -/

/-- `SwigArray._allocated` of an array of `n` elements (`as_double_array`, `as_int_array`); `gb` is
`MAX_MEMORY_SWIGLPK_LEAK_GB`.  Returns the new counter and whether `MemoryError` was raised.
lpinstance.py:899-938 -/
def swigAlloc {K : Type} [Field K] [LinearOrder K] (gb : K) (bytes : ℕ) (n : ℕ) : ℕ × Bool :=
  let b := bytes + 8 * n
  (b, decide ((1024 * (1024 * 1024) * gb : K) < (b : K)))

/-- Allocations one after the other, with the exceptions raised. -/
def swigAllocs {K : Type} [Field K] [LinearOrder K] (gb : K) (bytes : ℕ) : List ℕ → ℕ × List Bool
  | [] => (bytes, [])
  | n :: l =>
    let r := swigAlloc gb bytes n
    let q := swigAllocs gb r.1 l
    (q.1, r.2 :: q.2)

/-! ### Stored plots -/

/-- An object stored for a plotted set: its vertices, the state set and its step.  result.py:49-50 -/
structure PlotObj (V : Type) where
  verts : V
  state : ℕ
  step : ℕ

/-- `PlotData.mode_to_obj_list`: for each subplot, mode name to list of objects.  result.py:45-51 -/
abbrev PlotData (V : Type) := List (String → List (PlotObj V))

/-- `PlotData.add_state`  result.py:58-65 -/
def PlotData.add {V : Type} (p : PlotData V) (mode : String) (o : PlotObj V) (plot : ℕ) :
    Except Err (PlotData V) := do
  need (plot < p.length)
  return p.modify plot fun f => Function.update f mode (f mode ++ [o])

/-- Is this the object of that state set at that step?  result.py:78 -/
def PlotObj.isOf {V : Type} (state step : ℕ) (o : PlotObj V) : Bool :=
  decide (o.state = state) && decide (step = o.step)

/-- `PlotData.remove_state`: pops the first object found in the first subplot that has one.
result.py:67-89 -/
def PlotData.remove {V : Type} (mode : String) (state step : ℕ) : PlotData V → Except Err (PlotData V)
  | [] => .error .assertion
  | f :: p =>
    if (f mode).any (PlotObj.isOf state step) then
      .ok (Function.update f mode ((f mode).eraseP (PlotObj.isOf state step)) :: p)
    else do
      let q ← PlotData.remove mode state step p
      return f :: q

end Hylaa
