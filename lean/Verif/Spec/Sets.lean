import Verif.Model.LpUtil

/-!
# Textbook sets

The right-hand sides of the set-level properties, written without reference to LP instances.
Points are functions `ℕ → K`; only the first `n` coordinates are constrained.
-/

namespace Hylaa.Spec
variable {K : Type} [Field K] [LinearOrder K]

/-- The box `∏ [lb_i, ub_i]`. -/
def Box (box : List (K × K)) (x : ℕ → K) : Prop :=
  ∀ (i : ℕ) (h : i < box.length), (box[i]).1 ≤ x i ∧ x i ≤ (box[i]).2

/-- The zonotope `{c + Σ a_k g_k | -1 ≤ a_k ≤ 1}`. -/
def Zonotope (c : List K) (gens : List (List K)) (x : ℕ → K) : Prop :=
  ∃ a : ℕ → K, (∀ k < gens.length, -1 ≤ a k ∧ a k ≤ 1) ∧ ∀ i < c.length,
    x i = c.getD i 0 + ∑ k ∈ Finset.range gens.length, a k * (gens.getD k []).getD i 0

/-- A polyhedron given by typed rows `csr x (=|≤|≥) rhs`. -/
def Typed (csr : Csr K) (types : List RowType) (rhs : List K) (x : ℕ → K) : Prop :=
  ∀ (i : ℕ) (h : i < rhs.length), match types.getD i .up with
    | .fx => dot (csr.row i) x = rhs[i]
    | .up => dot (csr.row i) x ≤ rhs[i]
    | .lo => rhs[i] ≤ dot (csr.row i) x

/-- Points agree on the first `n` coordinates. -/
def EqOn (n : ℕ) (x y : ℕ → K) : Prop := ∀ i < n, x i = y i

end Hylaa.Spec
