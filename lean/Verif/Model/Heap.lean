import Verif.Model.Lp

/-!
# LP instances as Python objects with shared mutable parts

The functional model `Lp` is what one instance looks like.  Here the instance is an object whose
attributes are references: the GLPK problem, the `names` list, the `obj_cols` list and the
`bm_indices` list live in a heap and could be shared by several objects.
-/

namespace Hylaa

/-- A `glp_prob` object (rows, objective, basis). -/
structure Prob (K : Type) where
  rows : List (LRow K)
  obj : ℕ → K
  ws : ℕ

/-- The attributes of an `LpInstance` object; `prob`, `names`, `objCols`, `bmIdx` are addresses.
lpinstance.py:35-51 -/
structure LpObj where
  prob : ℕ
  names : ℕ
  objCols : ℕ
  bmIdx : ℕ
  dims : ℕ
  bmPos : ℕ × ℕ
  cur : ℕ
  ie : Option (ℕ × ℕ)

/-- Heap cells by kind (a cell's address is its index; cells are never freed while referenced). -/
structure Heap (K : Type) where
  probs : List (Prob K) := []
  strs : List (List String) := []
  ints : List (List ℕ) := []
  idxs : List (List (List ℕ)) := []
  objs : List LpObj := []

section
variable {K : Type} [Field K] [LinearOrder K]

/-- What an `LpInstance` looks like through its references. -/
def Heap.view (h : Heap K) (a : ℕ) : Option (Lp K) := do
  let o ← h.objs[a]?
  let p ← h.probs[o.prob]?
  let n ← h.strs[o.names]?
  let c ← h.ints[o.objCols]?
  let i ← h.idxs[o.bmIdx]?
  return { names := n, rows := p.rows, dims := o.dims, bmPos := o.bmPos, cur := o.cur, ie := o.ie,
           bmIdx := i, obj := p.obj, objCols := c, ws := p.ws }

/-- Elementary mutations the methods of `LpInstance` and the functions of lputil perform on an
instance they were given: any GLPK call on its problem; `self.names += ns` (lpinstance.py:301, also
reachable through `get_names`, lputil.py:128,472); `self.obj_cols = []` (lpinstance.py:508);
`self.obj_cols.append(c)` (518, 535); `set_reach_vars` (71-89: attributes and a new `bm_indices`
list, 91-113). -/
inductive Prim (K : Type)
  | glpk (f : Prob K → Prob K)
  | namesExtend (ns : List String)
  | objColsNew
  | objColsAppend (c : ℕ)
  | reach (dims : ℕ) (bmPos : ℕ × ℕ) (cur : ℕ) (ie : Option (ℕ × ℕ))

/-- Effect of an elementary mutation on the heap.  lpinstance.py:35-51, 71-113, 301, 508-535 -/
def Heap.exec (h : Heap K) (a : ℕ) (p : Prim K) : Heap K :=
  match h.objs[a]? with
  | none => h
  | some o =>
    match p with
    | .glpk f => { h with probs := h.probs.modify o.prob f }
    | .namesExtend ns => { h with strs := h.strs.modify o.names fun l => l ++ ns }
    | .objColsNew => { h with ints := h.ints ++ [[]],
                              objs := h.objs.set a { o with objCols := h.ints.length } }
    | .objColsAppend c => { h with ints := h.ints.modify o.objCols fun l => l ++ [c] }
    | .reach dims bmPos cur ie =>
      { h with idxs := h.idxs ++ [mkBmIdx dims bmPos.2 cur ie],
               objs := h.objs.set a { o with dims, bmPos, cur, ie, bmIdx := h.idxs.length } }

/-- A sequence of mutations of one object. -/
def Heap.execs (h : Heap K) (a : ℕ) (ps : List (Prim K)) : Heap K :=
  ps.foldl (fun h p => h.exec a p) h

/-- `LpInstance()`  lpinstance.py:35-51.  The new object's address is `h.objs.length`. -/
def Heap.new (h : Heap K) : Heap K :=
  { probs := h.probs ++ [⟨[], fun _ => 0, 0⟩], strs := h.strs ++ [[]], ints := h.ints ++ [[]],
    idxs := h.idxs ++ [[]],
    objs := h.objs ++ [⟨h.probs.length, h.strs.length, h.ints.length, h.idxs.length, 0, (0, 0), 0,
      none⟩] }

/-- `clone`  lpinstance.py:58-69: a new instance; `glp_copy_prob` into its problem; `names.copy()`;
`set_reach_vars` (with its asserts); `obj_cols.copy()`.  `none` if it raises; on success the new
object's address is `h.objs.length`. -/
def Heap.clone (h : Heap K) (a : ℕ) : Option (Heap K) := do
  let o ← h.objs[a]?
  let p ← h.probs[o.prob]?
  let n ← h.strs[o.names]?
  let c ← h.ints[o.objCols]?
  if o.bmPos.1 + o.dims ≤ p.rows.length ∧ o.bmPos.2 + 2 * o.dims ≤ n.length ∧
      ieFits o.ie o.dims p.rows.length n.length = true then
    some { probs := h.probs ++ [p], strs := h.strs ++ [n], ints := h.ints ++ [c],
           idxs := h.idxs ++ [mkBmIdx o.dims o.bmPos.2 o.cur o.ie],
           objs := h.objs ++ [⟨h.probs.length, h.strs.length, h.ints.length, h.idxs.length, o.dims,
             o.bmPos, o.cur, o.ie⟩] }
  else none

/-- One instruction of a program using LP instances. -/
inductive Instr (K : Type)
  | new
  | clone (a : ℕ)
  | mutate (a : ℕ) (p : Prim K)

/-- Run one instruction (a raising `clone` leaves the heap as it was, up to garbage). -/
def Heap.step (h : Heap K) (i : Instr K) : Heap K :=
  match i with
  | .new => h.new
  | .clone a => (h.clone a).getD h
  | .mutate a p => h.exec a p

/-- Run a program. -/
def Heap.run (h : Heap K) (is : List (Instr K)) : Heap K := is.foldl Heap.step h

/-- Does the instruction mutate object `b`? -/
def Instr.mutates (b : ℕ) (i : Instr K) : Prop := ∃ p, i = .mutate b p

end
end Hylaa
