import Verif.Model.TimeElapse
import Mathlib.Analysis.Normed.Algebra.MatrixExponential

/-! # The matrices of a mode over the reals, with Mathlib's matrix exponential -/

namespace Hylaa
open NormedSpace

/-- `a_csr` as a square matrix. -/
noncomputable def aMat (a : Csr ℝ) : Matrix (Fin a.nrows) (Fin a.nrows) ℝ := fun i j => coefAt (a.row i) j

/-- The augmented matrix of column `c` of `B`, time_elapse_expm.py:52-59: the columns of `A`
followed by column `c` of `B`, in shape `(dims + 1, dims + 1)`. -/
noncomputable def augMat (a b : Csr ℝ) (c : ℕ) : Matrix (Fin (a.nrows + 1)) (Fin (a.nrows + 1)) ℝ := fun i j =>
  if (i : ℕ) < a.nrows then
    (if (j : ℕ) < a.nrows then coefAt (a.row i) j else coefAt (b.row i) c) else 0

/-- `ndarray` with the entries of a square matrix. -/
noncomputable def ofSquare {n : ℕ} (M : Matrix (Fin n) (Fin n) ℝ) : Mat ℝ :=
  ⟨n, n, fun i j => if h : i < n ∧ j < n then M ⟨i, h.1⟩ ⟨j, h.2⟩ else 0⟩

/-- `one_step_input_effects_matrix`, time_elapse_expm.py:49-68: column `c` is the upper part of the
last column of `expm(aug_a * step_size)`. -/
noncomputable def inputEffects (a b : Csr ℝ) (τ : ℝ) : Mat ℝ :=
  ⟨a.nrows, b.ncols, fun i c => if h : i < a.nrows then
    exp (τ • augMat a b c) ⟨i, by omega⟩ (Fin.last _) else 0⟩

/-- The time-elapse data of a mode with dynamics `a` for step size `τ`. -/
noncomputable def dynOf (a : Csr ℝ) (inp : Option (Inputs ℝ)) (τ : ℝ) : Dyn ℝ where
  dims := a.nrows
  ex := fun k => ofSquare (exp ((k : ℝ) • τ • aMat a))
  nmat := inp.map fun i => inputEffects a i.b τ
  bTau := inp.map fun i => Mat.smul τ i.b.toMat

end Hylaa
