import Verif.Spec.Rep

/-!
# Textbook set operations

Right-hand sides of the properties about operations on sets.  Points are functions `ℕ → K` of which
the first `n` coordinates matter.
-/

namespace Hylaa.Spec
variable {K : Type} [Field K] [LinearOrder K]

/-- `M y`, coordinate `i`, with `M` of width `n`. -/
def mulV (n : ℕ) (M : ℕ → ℕ → K) (y : ℕ → K) (i : ℕ) : K := ∑ j ∈ Finset.range n, M i j * y j

/-- Pairs of an initial point and the total input effect the instance allows: the current-time set
is supposed to be `B y + t` over these pairs. -/
def InitPairs (s : Sys K) (y t : ℕ → K) : Prop :=
  ∃ v, s.Sat v ∧ (∀ j < s.dims, v (s.bmPos.2 + j) = y j) ∧
    ∀ j < s.dims, t j = if s.ie.isSome then v (s.cur + s.dims + j) else 0

/-- `{z + N u | z ∈ X, u ∈ U}` in dimension `n` with `m` inputs. -/
def AddImage (n m : ℕ) (X : (ℕ → K) → Prop) (N : ℕ → ℕ → K) (U : (ℕ → K) → Prop) (x : ℕ → K) :
    Prop :=
  ∃ z u, X z ∧ U u ∧ ∀ i < n, x i = z i + mulV m N u i

/-- The input set `{u | u_constraints u <= u_rhs}` of a mode. -/
def InputSet (inp : Inputs K) (u : ℕ → K) : Prop :=
  ∀ (i : ℕ) (h : i < inp.uRhs.length),
    (∑ c ∈ Finset.range inp.b.ncols, coefAt (inp.uCsc.cols.getD c []) i * u c) ≤ inp.uRhs[i]

/-- Inputs followed by `n` bloating coordinates in `[-β, β]` (LGG approximation). -/
def InputBoxSet (inp : Inputs K) (n : ℕ) (β : K) (u : ℕ → K) : Prop :=
  InputSet inp u ∧ ∀ d < n, -β ≤ u (inp.b.ncols + d) ∧ u (inp.b.ncols + d) ≤ β

/-- `a · x` over the first `n` coordinates. -/
def dotN (n : ℕ) (a : List K) (x : ℕ → K) : K := ∑ k ∈ Finset.range n, a.getD k 0 * x k

end Hylaa.Spec
