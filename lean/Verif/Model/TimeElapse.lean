import Verif.Model.LpUtil

/-!
# Time elapse (hylaa/time_elapse.py, hylaa/time_elapse_expm.py)

The matrix exponential itself (`scipy.sparse.linalg.expm`, `expm_multiply`) is a parameter `Dyn`;
`Proofs/Expm.lean` instantiates it with Mathlib's matrix exponential.  What is modelled is the
cache: which matrix is combined with which, for every order of requests.
-/

namespace Hylaa
variable {K : Type} [Field K] [LinearOrder K]

/-- What the time-elapse object computes with: `dims`; `ex k` is
`expm(a_csc * k * step_size).toarray()` (time_elapse_expm.py:42, 115); `nmat` is the matrix of
`init_matrices` (time_elapse_expm.py:49-68), `none` without inputs; `bTau` is
`b_csc.toarray() * step_size` (time_elapse_expm.py:143), `none` without inputs. -/
structure Dyn (K : Type) where
  dims : ℕ
  ex : ℕ → Mat K
  nmat : Option (Mat K) := none
  bTau : Option (Mat K) := none

/-- `time_elapser.inputs`  time_elapse.py:22 -/
def Dyn.inputs (d : Dyn K) : ℕ := match d.nmat with | none => 0 | some n => n.nc

/-- `TimeElapseExpmMult` after `init_matrices` (which the first request performs).
time_elapse_expm.py:20-37 -/
structure TE (K : Type) where
  curStep : ℕ := 0
  basis : Option (Mat K) := none
  ie : Option (Mat K) := none
  one : Mat K
  oneIe : Option (Mat K)
  lgg : Bool := false

/-- Constructor and `init_matrices`  time_elapse_expm.py:20-68 -/
def TE.init (d : Dyn K) : TE K := { one := d.ex 1, oneIe := d.nmat }

/-- `np.concatenate([a, b], axis=1)` -/
def Mat.hcat (a b : Mat K) : Except Err (Mat K) := do
  need (a.nr = b.nr)
  return ⟨a.nr, a.nc + b.nc, fun i j => if j < a.nc then a.e i j else b.e i (j - a.nc)⟩

/-- `m[:, 0:k]` -/
def Mat.takeCols (m : Mat K) (k : ℕ) : Mat K := { m with nc := min k m.nc }

/-- `np.dot(a, b)` with its shape check. -/
def Mat.mul? (a b : Mat K) : Except Err (Mat K) := do
  need (a.nc = b.nr)
  return a.mul b

/-- The input-effects part of a quick step, time_elapse_expm.py:98-109. -/
def TE.quickIe (d : Dyn K) (t : TE K) (prev : Mat K) : Except Err (Option (Mat K)) :=
  match d.nmat with
  | none => .ok t.ie
  | some _ => do
    let c ← needSome t.ie
    let c : Mat K := if t.lgg then c.takeCols d.inputs else c
    let c ← t.one.mul? c
    (if t.lgg then do
      let w ← c.hcat prev
      return some w
    else return some c)

/-- The input-effects part of a slow step, time_elapse_expm.py:123-131.  With the LGG model a dense
and a sparse matrix are concatenated, which raises. -/
def TE.slowIe (d : Dyn K) (t : TE K) (prev : Mat K) : Except Err (Option (Mat K)) :=
  match d.nmat with
  | none => .ok t.ie
  | some _ => do
    let n ← needSome t.oneIe
    let c ← prev.mul? n
    need (t.lgg = false)
    return some c

/-- The input-effects part of step 1, time_elapse_expm.py:82-88. -/
def TE.firstIe (d : Dyn K) (t : TE K) : Except Err (Option (Mat K)) :=
  if t.lgg = true ∧ d.nmat.isSome = true then do
    let c ← needSome t.oneIe
    let w ← c.hcat (Mat.id d.dims)
    return some w
  else .ok t.oneIe

/-- `assign_basis_matrix`  time_elapse_expm.py:70-135 -/
def TE.assign (d : Dyn K) (t : TE K) (k : ℕ) : Except Err (TE K) :=
  if k = 0 then .ok { t with basis := some (Mat.id d.dims), ie := none, curStep := k }
  else if k = 1 then do
    let ie ← t.firstIe d
    return { t with basis := some t.one, ie := ie, curStep := k }
  else if k = t.curStep + 1 then do
    let b ← needSome t.basis
    let b' ← b.mul? t.one
    let ie ← t.quickIe d b
    return { t with basis := some b', ie := ie, curStep := k }
  else do
    let prev := d.ex (k - 1)
    let b' ← prev.mul? t.one
    let ie ← t.slowIe d prev
    return { t with basis := some b', ie := ie, curStep := k }

/-- The assertions on the result, time_elapse.py:42-58 -/
def checkBasis (d : Dyn K) (t : TE K) (k : ℕ) : Except Err (Mat K × Option (Mat K)) := do
  let b ← needSome t.basis
  assert (b.nr = d.dims ∧ b.nc = d.dims)
  (if d.inputs = 0 ∨ k = 0 then do
    assert (t.ie.isNone = true)
    return (b, none)
  else do
    let ie ← needSome t.ie
    assert (ie.nr = d.dims ∧ ie.nc = if t.lgg then d.inputs + d.dims else d.inputs)
    return (b, some ie))

/-- `TimeElapser.get_basis_matrix`  time_elapse.py:28-60; `none` is the object not created yet. -/
def getBasis (d : Dyn K) (t : Option (TE K)) (k : ℕ) :
    Except Err (TE K × (Mat K × Option (Mat K))) := do
  let t ← (t.getD (TE.init d)).assign d k
  let r ← checkBasis d t k
  return (t, r)

/-- `use_lgg_approx`  time_elapse.py:62-67, time_elapse_expm.py:137-143 -/
def useLgg (d : Dyn K) (t : Option (TE K)) : Except Err (TE K) := do
  let t ← needSome t
  let b ← needSome d.bTau
  return { t with lgg := true, oneIe := some b }

end Hylaa
