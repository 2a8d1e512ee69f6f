import Verif.Spec.Sets

/-!
# What an LP instance is supposed to mean

Textbook description of a set built by a history of API calls, without LPs: a set of parameters
(initial point `y`, one input vector `u k` per added input-effects matrix) and the affine map
`y, u ↦ B y + Σ_k N_k u_k`.
-/

namespace Hylaa.Spec
variable {K : Type} [Field K] [LinearOrder K]

/-- A described set in dimension `n`. -/
structure Rep (K : Type) where
  n : ℕ
  /-- basis matrix -/
  B : ℕ → ℕ → K
  /-- number of inputs per step -/
  m : ℕ
  /-- input effects matrices, in the order they were added -/
  Ns : List (Mat K)
  /-- allowed initial points and input sequences -/
  P : (ℕ → K) → (ℕ → ℕ → K) → Prop

/-- `Σ_k N_k u_k`, coordinate `i`. -/
def inSum (m : ℕ) (Ns : List (Mat K)) (u : ℕ → ℕ → K) (i : ℕ) : K :=
  ∑ k ∈ Finset.range Ns.length, ∑ c ∈ Finset.range m,
    (Ns.getD k ⟨0, 0, fun _ _ => 0⟩).e i c * u k c

/-- `B y + Σ_k N_k u_k`, coordinate `i`. -/
def Rep.val (ρ : Rep K) (y : ℕ → K) (u : ℕ → ℕ → K) (i : ℕ) : K :=
  (∑ j ∈ Finset.range ρ.n, ρ.B i j * y j) + inSum ρ.m ρ.Ns u i

/-- Membership in the described set. -/
def Rep.Mem (ρ : Rep K) (x : ℕ → K) : Prop := ∃ y u, ρ.P y u ∧ ∀ i < ρ.n, x i = ρ.val y u i

/-- A plain set of points, no dynamics applied yet. -/
def Rep.ofSet (n : ℕ) (X : (ℕ → K) → Prop) : Rep K :=
  ⟨n, fun i j => if i = j then 1 else 0, 0, [], fun y _ => ∃ z, X z ∧ EqOn n y z⟩

/-- Replace the basis matrix. -/
def Rep.setBasis (ρ : Rep K) (M : Mat K) : Rep K := { ρ with B := M.e }

/-- One more step of inputs, `u ∈ U` entering through `N`. -/
def Rep.addInput (ρ : Rep K) (N : Mat K) (m : ℕ) (U : (ℕ → K) → Prop) : Rep K :=
  { ρ with m := m, Ns := ρ.Ns ++ [N], P := fun y u => ρ.P y u ∧ U (u ρ.Ns.length) }

/-- Keep the parameters with `vec · (M y + Σ_k ies_k u_k) ≤ rhs`. -/
def Rep.addInit (ρ : Rep K) (vec : List K) (rhs : K) (M : Mat K) (ies : List (Mat K)) : Rep K :=
  { ρ with P := fun y u => ρ.P y u ∧ (∑ k ∈ Finset.range ρ.n, vec.getD k 0 *
      ((∑ i ∈ Finset.range ρ.n, M.e k i * y i) + inSum ρ.m ies u k)) ≤ rhs }

/-- The states `R x + M w` with `x` in the described set, `G x ≤ h` (guard), `C w ≤ d`. -/
def Rep.Post (ρ : Rep K) (g : Csr K) (h : List K) (R M C : Csr K) (d : List K) (z : ℕ → K) : Prop :=
  ∃ x w, ρ.Mem x ∧ g.le x h ∧ C.le w d ∧ ∀ i < R.nrows, z i = dot (R.row i) x + dot (M.row i) w

end Hylaa.Spec
