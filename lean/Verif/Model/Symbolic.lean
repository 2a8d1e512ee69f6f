import Verif.Model.Mode

/-!
# Matrices and conditions from symbolic expressions

`sympy` (parsing and substitution) is an oracle: `SymLib.parse` turns a string into an expression
tree.  Strings are lists of characters.  Numbers are converted exactly (`float(e)` is not rounded).
-/

namespace Hylaa

/-- `sympy` expressions by their class, symbolic.py:12, 38-81; `other` stands for every other class
(powers, functions, ...), with its value as a function of the valuation. -/
inductive SymE (K : Type)
  | num (v : K)
  | sym (name : String)
  | add (args : List (SymE K))
  | mul (args : List (SymE K))
  | other (f : (String → K) → K)

section
variable {K : Type} [Field K] [LinearOrder K]

/-- `variables.index(name)`: the first position, ValueError otherwise (re-raised as RuntimeError). -/
def varIndex (vars : List String) (name : String) : Except Err ℕ := do
  need (name ∈ vars)
  return vars.idxOf name

/-- `rv[i] += v` -/
def bump (rv : List K) (i : ℕ) (v : K) : List K := rv.modify i fun x => x + v

/-- `_extract_linear_terms_rec` on a node that is not a sum, symbolic.py:43-81 -/
def extractLeaf (vars : List String) (aff : Bool) (rv : List K) : SymE K → Except Err (List K)
  | .add _ => .ok rv
  | .num v =>
    if v = 0 then .ok rv
    else do
      need (aff = true)
      return bump rv (rv.length - 1) v
  | .sym n => do
    let i ← varIndex vars n
    return bump rv i 1
  | .mul args => match args with
    | [.num v, .sym n] => do
      let i ← varIndex vars n
      return bump rv i v
    | [.sym n, .num v] => do
      let i ← varIndex vars n
      return bump rv i v
    | _ => .error .runtime
  | .other _ => .error .runtime

mutual
/-- `_extract_linear_terms_rec`  symbolic.py:35-81 -/
def extractRec (vars : List String) (aff : Bool) (rv : List K) : SymE K → Except Err (List K)
  | .add args => extractList vars aff rv args
  | .num v => extractLeaf vars aff rv (.num v)
  | .sym n => extractLeaf vars aff rv (.sym n)
  | .mul args => extractLeaf vars aff rv (.mul args)
  | .other f => extractLeaf vars aff rv (.other f)

/-- The loop over the summands (`sympy` sums have at least two), symbolic.py:38-42 -/
def extractList (vars : List String) (aff : Bool) (rv : List K) : List (SymE K) → Except Err (List K)
  | [] => .ok rv
  | e :: l => do
    let rv ← extractRec vars aff rv e
    extractList vars aff rv l
end

/-- `extract_linear_terms`  symbolic.py:14-33 -/
def extractLinear (e : SymE K) (vars : List String) (aff : Bool) : Except Err (List K) :=
  extractRec vars aff (List.replicate (if aff then vars.length + 1 else vars.length) 0) e

/-- `sympy`: `parse_expr(text, local_dict)` followed by `.subs(constants)`, symbolic.py:113-115,
166-169; parse errors raise -/
structure SymLib (K : Type) where
  parse : List Char → List String → List (String × K) → Except Err (SymE K)

/-- `make_dynamics_mat`  symbolic.py:94-123 -/
def makeDynamicsMat (L : SymLib K) (vars : List String) (ders : List (List Char))
    (consts : List (String × K)) (aff : Bool) : Except Err (List (List K)) := do
  let rows ← ders.mapM fun d => do
    let e ← L.parse d vars consts
    extractLinear e vars aff
  return if aff then rows ++ [List.replicate (vars.length + 1) 0] else rows

/-- `make_reset_mat`: `mat[-1][-1] = 1.0` with an affine variable.  symbolic.py:83-92 -/
def makeResetMat (L : SymLib K) (vars : List String) (resets : List (List Char))
    (consts : List (String × K)) (aff : Bool) : Except Err (List (List K)) := do
  let mat ← makeDynamicsMat L vars resets consts aff
  return if aff then mat.modify (mat.length - 1) fun r => r.set (r.length - 1) 1 else mat

/-- `text.count(c1 c2)` for a two-character pattern with `c1 ≠ c2` (occurrences cannot overlap). -/
def countPat (c1 c2 : Char) : List Char → ℕ
  | a :: b :: l => (if a = c1 ∧ b = c2 then 1 else 0) + countPat c1 c2 (b :: l)
  | _ => 0

/-- `left, right = text.split(c1 c2)` for a text with exactly one occurrence. -/
def splitPat (c1 c2 : Char) : List Char → List Char × List Char
  | a :: b :: l =>
    if a = c1 ∧ b = c2 then ([], l)
    else
      let r := splitPat c1 c2 (b :: l)
      (a :: r.1, r.2)
  | l => (l, [])

/-- One condition: `left - (right) <= 0`, symbolic.py:147-178.  Replacing `>=` by `<=` and splitting
at `<=` is splitting at `>=`, there being no `<=`. -/
def makeCondRow (L : SymLib K) (vars : List String) (consts : List (String × K)) (aff : Bool)
    (cond : List Char) : Except Err (List K × K) := do
  need (countPat '<' '=' cond + countPat '>' '=' cond = 1)
  let p := if countPat '>' '=' cond = 1 then (splitPat '>' '=' cond).swap else splitPat '<' '=' cond
  let e ← L.parse (p.1 ++ " - (".toList ++ p.2 ++ ")".toList) vars consts
  let terms ← extractLinear e vars true
  let row := terms.dropLast
  return (if aff then row ++ [0] else row, -1 * terms.getLastD 0)

/-- `make_condition`  symbolic.py:125-180 -/
def makeCondition (L : SymLib K) (vars : List String) (conds : List (List Char))
    (consts : List (String × K)) (aff : Bool) : Except Err (List (List K) × List K) := do
  let rows ← conds.mapM fun c => makeCondRow L vars consts aff c
  return (rows.map fun r => r.1, rows.map fun r => r.2)

end
end Hylaa
