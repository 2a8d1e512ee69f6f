import Verif.Model.Directions
import Mathlib.LinearAlgebra.Matrix.DotProduct
import Mathlib.LinearAlgebra.Span.Basic

/-! # Vectors given by lists of numbers (`np.ndarray`), for the statements about directions -/

namespace Hylaa
variable {K : Type} [Field K]

/-- The `n`-dimensional vector with the entries of a list. -/
def vec (n : ℕ) (l : List K) : Fin n → K := fun i => l.getD i 0

/-- All linear combinations of the rows. -/
def rowSpan (n : ℕ) (rows : List (List K)) : Submodule K (Fin n → K) :=
  Submodule.span K {v | ∃ r ∈ rows, v = vec n r}

/-- Rows that are `n`-dimensional, of length 1 and pairwise orthogonal. -/
structure Orthonormal (n : ℕ) (rows : List (List K)) : Prop where
  len : ∀ r ∈ rows, r.length = n
  dot : ∀ i j (hi : i < rows.length) (hj : j < rows.length),
    vec n rows[i] ⬝ᵥ vec n rows[j] = if i = j then 1 else 0

/-- `sq` is the square root, `tol` is positive, and the random vectors have `n` entries. -/
structure DirCfg.Ok [LinearOrder K] (c : DirCfg K) (n : ℕ) : Prop where
  nonneg : ∀ x, 0 ≤ c.sq x
  sq : ∀ x, 0 ≤ x → c.sq x * c.sq x = x
  tol : 0 < c.tol
  rand : ∀ k, (c.rand k).length = n

end Hylaa
