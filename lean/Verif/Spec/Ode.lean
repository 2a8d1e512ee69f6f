import Verif.Model.Basic
import Mathlib.Analysis.Calculus.Deriv.Basic

/-! # Solutions of linear differential equations -/

namespace Hylaa.Spec
open Set

/-- `x` solves `x' = A x + d(t)` on `[0, T]` (right derivatives; `d` is the effect of inputs). -/
structure Solves (a : Csr ℝ) (d : ℝ → ℕ → ℝ) (T : ℝ) (x : ℝ → ℕ → ℝ) : Prop where
  cont : ∀ i < a.nrows, ContinuousOn (fun t => x t i) (Icc 0 T)
  deriv : ∀ i < a.nrows, ∀ t ∈ Ico 0 T,
    HasDerivWithinAt (fun s => x s i) (dot (a.row i) (x t) + d t i) (Ici t) t

end Hylaa.Spec
