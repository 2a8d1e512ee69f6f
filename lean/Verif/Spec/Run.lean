import Verif.Spec.Hybrid

/-!
# Runs of a hybrid automaton in discrete time

A run dwells `k` steps in a mode (all states before the last one inside the invariant), takes a
transition whose guard holds, applies its reset, and goes on in the target mode.  As in the tool,
guards are looked at after at least one step, or at once only with the option
`process_urgent_guards` (and then inside the invariant).
-/

namespace Hylaa.Spec
variable {K : Type} [Field K] [LinearOrder K]

/-- A hybrid automaton with its discrete-time dynamics, the option `process_urgent_guards`, the
time bound in steps, and the states (`from_ i`: of mode `i`) in which transitions may be taken. -/
structure Hyb (K : Type) where
  ha : HA K
  dyn : ℕ → Dyn K
  urgent : Bool
  bound : ℕ
  from_ : ℕ → (ℕ → K) → Prop

/-- `y = R x + M w` for some `w` with `C w ≤ d`; no reset matrix: `R` is the identity on the `n`
variables; no Minkowski matrix: no second summand. -/
def ResetTo (n : ℕ) (t : Tr K) (x y : ℕ → K) : Prop :=
  ∃ w, (∀ M, t.mink = some M → (t.minkC.getD ⟨0, []⟩).le w (t.minkRhs.getD [])) ∧
    ∀ i < (match t.reset with | none => n | some R => R.nrows),
      y i = (match t.reset with | none => x i | some R => dot (R.row i) x) +
        (match t.mink with | none => 0 | some M => dot (M.row i) w)

/-- From mode `i` entered at `x`: dwell `k` steps, then take transition `ti`, entering its target
mode at `y`.  Invariants may be violated by at most `ε`. -/
def Hyb.Jump (H : Hyb K) (ε : K) (i : ℕ) (x : ℕ → K) (k ti j : ℕ) (y : ℕ → K) : Prop :=
  ∃ m t z l, H.ha.modes[i]? = some m ∧ m.isError = false ∧ Flow ε m (H.dyn i) k x z ∧
    (k = 0 → H.urgent = true ∧ InvEps ε m z) ∧ H.ha.out[i]? = some l ∧ ti ∈ l ∧
    H.ha.trans[ti]? = some t ∧ GuardHolds t z ∧ ResetTo (H.dyn i).dims t z y ∧ j = t.dst ∧ H.from_ i z

/-- Mode `i` can be entered at point `x` after `n` steps, starting in `X0` (inside the invariant),
within the time bound. -/
inductive Hyb.Reach (H : Hyb K) (ε : K) (X0 : ℕ → (ℕ → K) → Prop) : ℕ → (ℕ → K) → ℕ → Prop
  | init {i x m} : X0 i x → H.ha.modes[i]? = some m → InvEps ε m x → Reach H ε X0 i x 0
  | jump {i x n k ti j y} : Reach H ε X0 i x n → H.Jump ε i x k ti j y → n + k ≤ H.bound →
      Reach H ε X0 j y (n + k)

/-- No error mode can be entered. -/
def Hyb.Safe (H : Hyb K) (X0 : ℕ → (ℕ → K) → Prop) : Prop :=
  ∀ i x n m, H.Reach 0 X0 i x n → H.ha.modes[i]? = some m → m.isError = false

/-- From mode `i` entered at `x` after `n` steps an error mode can be entered within the time bound. -/
inductive Hyb.Bad (H : Hyb K) : ℕ → (ℕ → K) → ℕ → Prop
  | err {i x n m} : H.ha.modes[i]? = some m → m.isError = true → Bad H i x n
  | jump {i x n k ti j y} : H.Jump 0 i x k ti j y → n + k ≤ H.bound → Bad H j y (n + k) →
      Bad H i x n

/-- From mode `i` entered at `x` after `n` steps there is a run with infinitely many jumps, all within the time bound. -/
def Hyb.Forever (H : Hyb K) (i : ℕ) (x : ℕ → K) (n : ℕ) : Prop :=
  ∃ (mode : ℕ → ℕ) (pt : ℕ → ℕ → K) (dwell ti : ℕ → ℕ), mode 0 = i ∧ pt 0 = x ∧
    ∀ k, H.Jump 0 (mode k) (pt k) (dwell k) (ti k) (mode (k + 1)) (pt (k + 1)) ∧
      n + ∑ l ∈ Finset.range (k + 1), dwell l ≤ H.bound

end Hylaa.Spec
