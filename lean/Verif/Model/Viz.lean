import Verif.Model.Core

/-!
# The picture of the aggregation DAG

`AggDag.viz` and `AggDagNode.viz` (aggdag.py:246-279, 540-640) as lists of calls of graphviz.  `id(x)` is the
position of `x` in its list; a mode's name is its position.  `g.render`, `g.view` and the file name are not modelled.
-/

namespace Hylaa
variable {K : Type} [Field K] [LinearOrder K]

/-- Node names of the picture: `node_{id}`, `out_{id}_{id(transition)}`, `preroot{i}`.
aggdag.py:264, 549, 575-578 -/
inductive VName
  | node (n : ℕ)
  | out (n : ℕ) (t : Option ℕ)
  | pre (i : ℕ)
  deriving DecidableEq

/-- An edge's label: one number of steps or an interval.  aggdag.py:591-594 -/
inductive VLabel
  | one (s : ℕ)
  | range (a b : ℕ)
  deriving DecidableEq

/-- The second part of a node's label: steps (with a star if the time bound was reached), or incomplete so far.
aggdag.py:554-563 -/
inductive VState
  | steps (s : ℕ) (star : Bool)
  | incomplete (s : ℕ)
  deriving DecidableEq

/-- Calls of `g.node` and `g.edge`.  aggdag.py:266-269, 566, 598-600 -/
inductive VDraw
  | full (n mode : ℕ) (st : VState)
  | dashed (name : VName) (mode : ℕ)
  | invis (i : ℕ)
  | edge (a b : VName) (label : Option VLabel)
  deriving DecidableEq

/-- `child_name` of an operation of node `n`.  aggdag.py:573-578 -/
def childName (n : ℕ) (op : OpTr K) : VName :=
  match op.child with
  | none => .out n op.trans
  | some c => .node c

/-- The operations of a node to be drawn as one edge: `enabled_transitions`.  aggdag.py:569 -/
abbrev VGroup (K : Type) := VName × List (OpTr K)

/-- Draw one edge (and the dashed node it leads to).  aggdag.py:590-602, 620-632 -/
def drawGroup (ha : HA K) (n : ℕ) (g : VGroup K) : Except Err (List VDraw) := do
  let a ← needSome g.2.head?
  let b ← needSome g.2.getLast?
  let l : VLabel := if g.2.length = 1 then .one a.step else .range a.step b.step
  match g.1 with
  | .out _ _ => do
    let t ← needSome a.trans
    let tr ← needSome ha.trans[t]?
    return [.dashed g.1 tr.dst, .edge (.node n) g.1 (some l)]
  | x => return [.edge (.node n) x (some l)]

/-- `drawGroup` for each.  aggdag.py:590-602 -/
def drawGroups (ha : HA K) (n : ℕ) : List (VGroup K) → Except Err (List VDraw)
  | [] => .ok []
  | g :: l => do
    let d ← drawGroup ha n g
    let r ← drawGroups ha n l
    return d ++ r

/-- Add a transition operation to its group.  aggdag.py:580-588 -/
def addGroup (en : List (VGroup K)) (x : VName) (op : OpTr K) : List (VGroup K) :=
  if en.any fun g => decide (g.1 = x) then en.map fun g => if g.1 = x then (g.1, g.2 ++ [op]) else g
  else en ++ [(x, [op])]

/-- `op_list[-1].step < op.step - 1`  aggdag.py:619 -/
def oldGroup (s : ℕ) (g : VGroup K) : Bool := g.2.getLast?.any fun l => decide (l.step + 1 < s)

/-- Draw and remove the groups that are no longer enabled at step `s`.  aggdag.py:612-635 -/
def pruneGroups (ha : HA K) (n s : ℕ) (en : List (VGroup K)) (out : List VDraw) :
    Except Err (List (VGroup K) × List VDraw) := do
  let d ← drawGroups ha n (en.filter (oldGroup s))
  return (en.filter fun g => !oldGroup s g, out ++ d)

/-- One entry of the node's list of operations.  aggdag.py:571-635 -/
def vizOp (ha : HA K) (ops : List (OpTr K)) (n : ℕ) (en : List (VGroup K)) (out : List VDraw) (o : NOp) :
    Except Err (List (VGroup K) × List VDraw) :=
  match o with
  | .tr i => do
    let op ← needSome ops[i]?
    pruneGroups ha n op.step (addGroup en (childName n op) op) out
  | .left s _ => do
    let d ← drawGroups ha n en
    pruneGroups ha n s [] (out ++ d)
  | .inv s _ _ => pruneGroups ha n s en out

/-- The loop over a node's operations.  aggdag.py:571-635 -/
def vizOps (ha : HA K) (ops : List (OpTr K)) (n : ℕ) : List NOp → List (VGroup K) → List VDraw →
    Except Err (List (VGroup K) × List VDraw)
  | [], en, out => .ok (en, out)
  | o :: l, en, out => do
    let r ← vizOp ha ops n en out o
    vizOps ha ops n l r.1 r.2

/-- A node's label.  aggdag.py:550-563 -/
def vizState (nd : Node) (stepIn : ℕ) : VState :=
  match nd.ops.getLast? with
  | some (.left s b) => .steps s b
  | _ => .incomplete stepIn

/-- The children to be drawn after a node.  aggdag.py:638 -/
def vizKids (ops : List (OpTr K)) (nd : Node) : List ℕ :=
  nd.ops.filterMap fun o => match o with
    | .tr i => ops[i]?.bind fun op => op.child
    | _ => none

/-- The children that are not drawn yet; `go` draws one.  aggdag.py:638-640 -/
def vizList (go : ℕ → List ℕ → List VDraw → Except Err (List ℕ × List VDraw)) :
    List ℕ → List ℕ → List VDraw → Except Err (List ℕ × List VDraw)
  | [], drawn, out => .ok (drawn, out)
  | c :: l, drawn, out =>
    if c ∈ drawn then vizList go l drawn out
    else do
      let r ← go c drawn out
      vizList go l r.1 r.2

/-- `AggDagNode.viz`  aggdag.py:540-640.  The first number: how deep calls may be nested (Python's recursion limit). -/
def vizNode (ha : HA K) (σ : Core K) : ℕ → ℕ → List ℕ → List VDraw → Except Err (List ℕ × List VDraw)
  | 0, _, _, _ => .error .memory
  | f + 1, n, drawn, out => do
    let nd ← needSome σ.nodes[n]?
    assert (∀ p ∈ nd.parents, σ.ops[p]?.bind (fun op => op.child) = some n)
    let st ← needSome σ.states[nd.state]?
    let r ← vizOps ha σ.ops n nd.ops [] (out ++ [.full n st.mode (vizState nd st.stepIn)])
    vizList (vizNode ha σ f) (vizKids σ.ops nd) (drawn ++ [n]) r.2

/-- The loop over the roots.  aggdag.py:261-271 -/
def vizRoots (ha : HA K) (σ : Core K) (f : ℕ) : ℕ → List ℕ → List ℕ → List VDraw →
    Except Err (List ℕ × List VDraw)
  | _, [], drawn, out => .ok (drawn, out)
  | i, x :: l, drawn, out => do
    let r ← vizNode ha σ f x drawn (out ++ [.invis i, .edge (.pre i) (.node x) none])
    vizRoots ha σ f (i + 1) l r.1 r.2

/-- `AggDag.viz`  aggdag.py:246-279 -/
def vizDag (ha : HA K) (σ : Core K) (f : ℕ) : Except Err (List VDraw) := do
  let r ← vizRoots ha σ f 0 σ.roots [] []
  assert (∀ w ∈ σ.waiting, ∀ op, σ.ops[w]? = some op → ∀ p, op.parent = some p → p ∈ r.1)
  return r.2

end Hylaa
