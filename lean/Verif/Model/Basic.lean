import Mathlib.Algebra.Order.Field.Basic
import Mathlib.Algebra.BigOperators.Group.Finset.Basic
import Mathlib.Algebra.BigOperators.Ring.Finset
import Mathlib.Data.Rat.Defs
import Mathlib.Algebra.Order.Ring.Rat
import Mathlib.Tactic.Ring
import Mathlib.Tactic.Linarith

/-!
# Basic data: numbers, sparse rows, matrices, exceptions

Numbers are elements of a linearly ordered field `K` (floating point is not modelled; the model
is executable at `ℚ`).  Vectors and points are functions `ℕ → K`; only the coordinates below the
relevant dimension matter.
-/

namespace Hylaa

/-- Python exceptions as values.  `assertion`: a failing `assert`; `runtime`: `RuntimeError`
(and other library exceptions); `unsat`: `UnsatError` (lpinstance.py:896-897); `memory`:
`MemoryError` (lpinstance.py:935-938). -/
inductive Err
  | assertion
  | runtime
  | unsat
  | memory
  deriving DecidableEq, Repr

/-- A sparse row: the `(indices, data)` slice of one row of a `scipy.sparse.csr_matrix`
(or one column of a `csc_matrix`), e.g. hylaa/lpinstance.py:398-412.
Repeated indices add up, as in scipy. -/
abbrev SRow (K : Type) := List (ℕ × K)

/-- `scipy.sparse.csr_matrix`: `shape = (rows.length, ncols)`. -/
structure Csr (K : Type) where
  ncols : ℕ
  rows : List (SRow K)

/-- `scipy.sparse.csc_matrix`: `shape = (nrows, cols.length)`. -/
structure Csc (K : Type) where
  nrows : ℕ
  cols : List (SRow K)

/-- A dense `np.ndarray` matrix with `shape = (nr, nc)`. -/
structure Mat (K : Type) where
  nr : ℕ
  nc : ℕ
  e : ℕ → ℕ → K

section
variable {K : Type} [Field K]

/-- Value of a sparse row at a vector (`row * x`). -/
def dot (r : SRow K) (v : ℕ → K) : K := (r.map fun p => p.2 * v p.1).sum

/-- `csr_matrix.check_format()`: all column indices are in range. -/
def Csr.WF (c : Csr K) : Prop := ∀ r ∈ c.rows, ∀ p ∈ r, p.1 < c.ncols

/-- Number of rows `shape[0]`. -/
def Csr.nrows (c : Csr K) : ℕ := c.rows.length

/-- Row `i` of a csr matrix (empty outside the shape). -/
def Csr.row (c : Csr K) (i : ℕ) : SRow K := c.rows.getD i []

/-- `csr * x`, row `i`. -/
def Csr.mulVec (c : Csr K) (v : ℕ → K) (i : ℕ) : K := dot (c.row i) v

/-- `csr x <= rhs` for all rows. -/
def Csr.le [LE K] (c : Csr K) (x : ℕ → K) (rhs : List K) : Prop :=
  ∀ i (h : i < rhs.length), dot (c.row i) x ≤ rhs[i]

/-- `np.dot(M, x)`, row `i`. -/
def Mat.mulVec (m : Mat K) (x : ℕ → K) (i : ℕ) : K := ∑ j ∈ Finset.range m.nc, m.e i j * x j

/-- `np.dot(M, N)`. -/
def Mat.mul (m n : Mat K) : Mat K :=
  ⟨m.nr, n.nc, fun i k => ∑ j ∈ Finset.range m.nc, m.e i j * n.e j k⟩

/-- `np.identity(n)`. -/
def Mat.id (n : ℕ) : Mat K := ⟨n, n, fun i j => if i = j then 1 else 0⟩

/-- `a * M` for a scalar `a`. -/
def Mat.smul (a : K) (m : Mat K) : Mat K := ⟨m.nr, m.nc, fun i j => a * m.e i j⟩

/-- Sum of all entries of a sparse row in column `j`. -/
def coefAt (r : SRow K) (j : ℕ) : K := ((r.filter fun p => p.1 = j).map fun p => p.2).sum

/-- `csr.toarray()`. -/
def Csr.toMat (c : Csr K) : Mat K := ⟨c.nrows, c.ncols, fun i j => coefAt (c.row i) j⟩

/-- `csr_matrix(list of dense rows, dtype=float)`: zeros are not stored.
`ncols` is the row length. -/
def denseRow [DecidableEq K] (l : List K) : SRow K :=
  (l.zipIdx.map fun p => (p.2, p.1)).filter fun p => p.2 ≠ 0

/-- A dense vector given by its first `n` entries as a sparse row with every index stored
(the `inds`/`data` lists the library builds by looping over `range(n)`). -/
def rangeRow (n off : ℕ) (f : ℕ → K) : SRow K := (List.range n).map fun j => (off + j, f j)

/-- Shift all column indices (`offset[1] + index`, lpinstance.py:406). -/
def shiftRow (off : ℕ) (r : SRow K) : SRow K := r.map fun p => (off + p.1, p.2)

/-- `sp.sparse.identity(n, dtype=float, format='csr')`. -/
def Csr.id (n : ℕ) : Csr K := ⟨n, (List.range n).map fun i => [(i, 1)]⟩

/-- `-1 * csr`. -/
def negRow (r : SRow K) : SRow K := r.map fun p => (p.1, -p.2)

/-- Transposing csr to csc (`csc_matrix(csr)`): column `c` lists the rows' entries in it. -/
def Csr.toCsc (c : Csr K) : Csc K :=
  ⟨c.nrows, (List.range c.ncols).map fun j =>
    c.rows.zipIdx.flatMap fun (r, i) => (r.filter fun p => p.1 = j).map fun p => (i, p.2)⟩

end
end Hylaa
