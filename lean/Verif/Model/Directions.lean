import Verif.Model.Core

/-!
# Template directions for Arnoldi aggregation (hylaa/lputil.py:875-1001, hylaa/aggregate.py:37-52)

Numbers are exact; the square root and the random vectors are parameters.  The loops of the code run until
enough vectors are found: `fuel` bounds the number of rounds, `none` means that it did not suffice.
-/

namespace Hylaa
variable {K : Type} [Field K] [LinearOrder K]

/-- `np.linalg.norm(v, 2)` is `sq` of the sum of squares; `tol` is the `1e-6` of lputil.py:927, 989;
`rand k` is the `k`-th vector drawn by `np.random.rand(dims,)`. -/
structure DirCfg (K : Type) where
  sq : K → K
  tol : K
  rand : ℕ → List K

/-- `cur_vec -= prev_vec * dot_val`  lputil.py:919-921, 981-983 -/
def projOne (c p : List K) : List K := List.zipWith (fun x y => x - y * dotDense p c) c p

/-- `for prev_vec in rv: ...`  lputil.py:917-921, 979-983 -/
def projOut (rv : List (List K)) (c : List K) : List K := rv.foldl projOne c

/-- The first coordinate in which all vectors found so far are zero, lputil.py:899-909, 960-970 -/
def freeDir (dims : ℕ) (rv : List (List K)) : Option ℕ :=
  (List.range dims).find? fun d => rv.all fun v => decide (v.getD d 0 = 0)

/-- `np.linalg.norm(cur_vec, 2)`  lputil.py:923, 985 -/
def DirCfg.norm (c : DirCfg K) (v : List K) : K := c.sq (dotDense v v)

/-- `a_csr * cur_vec`  lputil.py:915 -/
def Csr.applyTo (a : Csr K) (v : List K) : List K :=
  a.rows.map fun r => dot r fun i => v.getD i 0

/-- The local variables of `make_direction_matrix`: `rv`, `cur_vec`, and the number of random vectors drawn. -/
structure DirSt (K : Type) where
  rv : List (List K)
  cur : Option (List K)
  k : ℕ

/-- The next candidate, lputil.py:897-915 -/
def DirSt.cand (c : DirCfg K) (a : Csr K) (dims : ℕ) (s : DirSt K) : List K × ℕ :=
  match s.cur with
  | some v => (a.applyTo v, s.k)
  | none =>
    match freeDir dims s.rv with
    | some d => (unitVec dims d 1, s.k)
    | none => (c.rand s.k, s.k + 1)

/-- One round of the loop, lputil.py:896-935 (exact numbers are never infinite or NaN) -/
def DirSt.round (c : DirCfg K) (a : Csr K) (dims : ℕ) (s : DirSt K) : DirSt K :=
  let q := s.cand c a dims
  let v := projOut s.rv q.1
  if c.norm v < c.tol then { s with cur := none, k := q.2 }
  else
    let w := v.map fun x => x / c.norm v
    { rv := s.rv ++ [w], cur := some w, k := q.2 }

/-- `while len(rv) < dims`  lputil.py:896 -/
def dirLoop (c : DirCfg K) (a : Csr K) (dims : ℕ) : ℕ → DirSt K → Option (List (List K))
  | 0, s => if s.rv.length < dims then none else some s.rv
  | n + 1, s => if s.rv.length < dims then dirLoop c a dims n (s.round c a dims) else some s.rv

/-- `make_direction_matrix`  lputil.py:875-939.  (A matrix that is not square, which a mode cannot have, is an
error here.) -/
def makeDirections (c : DirCfg K) (fuel : ℕ) (point : List K) (a : Csr K) :
    Except Err (Option (List (List K))) := do
  assert (point.length = a.ncols)
  need (a.nrows = a.ncols)
  return dirLoop c a point.length fuel { rv := [], cur := some point, k := 0 }

/-- The local variables of `reorthogonalize_matrix`.  When `cur` is a vector, it is the very array that was
appended to `rv` last (`rv.append(cur_vec)`, lputil.py:997; before the first round it is unbound, which is
`none`).  `mat`: the argument, whose rows are overwritten. -/
structure OrthSt (K : Type) where
  rv : List (List K)
  cur : Option (List K)
  mat : List (List K)
  next : ℕ
  k : ℕ

/-- The end of a round, lputil.py:985-997, for the projected vector `v`. -/
def OrthSt.finish (c : DirCfg K) (s : OrthSt K) (v : List K) : OrthSt K :=
  if c.norm v < c.tol then { s with cur := none }
  else { s with rv := s.rv ++ [v.map fun x => x / c.norm v], cur := some (v.map fun x => x / c.norm v) }

/-- One round of the loop, lputil.py:957-997.  A row of the argument is a view: the projection overwrites it
(lputil.py:976, 983).  If all rows are used up, no unit vector qualifies and `cur_vec` is still the array
appended in the round before, the projection works on that array inside `rv`, and it is its own last
`prev_vec`. -/
def OrthSt.round (c : DirCfg K) (dims : ℕ) (s : OrthSt K) : OrthSt K :=
  match s.mat[s.next]? with
  | some r =>
    let v := projOut s.rv r
    ({ s with mat := s.mat.set s.next v, next := s.next + 1 } : OrthSt K).finish c v
  | none =>
    match freeDir dims s.rv with
    | some d => s.finish c (projOut s.rv (unitVec dims d 1))
    | none =>
      match s.cur with
      | some _ =>
        let l := s.rv.getLast?.getD []
        let v := projOut s.rv.dropLast l
        let v := projOne v v
        ({ s with rv := s.rv.dropLast ++ [v] } : OrthSt K).finish c v
      | none => ({ s with k := s.k + 1 } : OrthSt K).finish c (projOut s.rv (c.rand s.k))

/-- `while len(rv) < dims`  lputil.py:957 -/
def orthLoop (c : DirCfg K) (dims : ℕ) : ℕ → OrthSt K → Option (OrthSt K)
  | 0, s => if s.rv.length < dims then none else some s
  | n + 1, s => if s.rv.length < dims then orthLoop c dims n (s.round c dims) else some s

/-- `reorthogonalize_matrix`  lputil.py:941-1001 for an array: returns the new matrix and the argument as it
is afterwards.  `k0`: number of random vectors drawn before. -/
def reorthogonalize (c : DirCfg K) (fuel k0 : ℕ) (mat : List (List K)) (dims : ℕ) :
    Except Err (Option (List (List K) × List (List K))) := do
  assert (∀ r ∈ mat, r.length = dims)
  return (orthLoop c dims fuel { rv := [], cur := none, mat := mat, next := 0, k := k0 }).map
    fun s => (s.rv, s.mat)

/-- `premode_dir_mat * t.reset_csr.transpose()`  aggregate.py:50 -/
def projectDirs (r : Csr K) (dirs : List (List K)) : List (List K) := dirs.map r.applyTo

/-- The Arnoldi directions of `aggregate`, aggregate.py:37-52; `c n` are the random vectors drawn in call `n`
(those of the second function start again at 0: the streams are arbitrary).  A loop that is not finished is an
error here. -/
def arnoldiDirs (c c' : ℕ → DirCfg K) (fuel : ℕ) (call : ℕ) (center : Option (List K)) (pre : Mode K)
    (t : Tr K) (n : ℕ) : Except Err (List (List K)) := do
  let p ← needSome center
  let a ← needSome pre.a
  let r ← makeDirections (c call) fuel p a
  let ds ← needSome r
  (match t.reset with
    | none => .ok ds
    | some R => do
      let q ← reorthogonalize (c' call) fuel 0 (projectDirs R ds) n
      let m ← needSome q
      return m.1)

end Hylaa
