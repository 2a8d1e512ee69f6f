import Verif.Model.Build

/-! # Which building scripts the end-to-end theorems are about -/

namespace Hylaa.Spec
variable {K : Type} [Field K] [LinearOrder K]

/-- A csr matrix as scipy keeps it: indices in range, none twice in a row. -/
structure Canonical (c : Csr K) : Prop where
  wf : ∀ r ∈ c.rows, ∀ p ∈ r, p.1 < c.ncols
  nodup : ∀ r ∈ c.rows, (r.map fun p => p.1).Nodup

/-- Matrices are canonical and not empty; a guard without conditions is written with `set_guard_true`; a
Minkowski matrix comes with constraints. -/
def OpOk : BuildOp K → Prop
  | .newMode _ => True
  | .newTransition _ _ _ => True
  | .setDynamics _ a => Canonical a ∧ 0 < a.nrows
  | .setInvariant _ c _ => Canonical c
  | .setInputs _ b _ _ _ => Canonical b ∧ 0 < b.ncols
  | .setGuard _ c _ => Canonical c ∧ c.rows ≠ []
  | .setGuardTrue _ => True
  | .setReset _ r m c d => (∀ M, r = some M → Canonical M) ∧ (∀ M, m = some M → Canonical M) ∧
      (∀ M, c = some M → Canonical M) ∧ (d = none → m = none)

/-- The mode whose dynamics are set. -/
def dynTarget : BuildOp K → Option ℕ
  | .setDynamics m _ => some m
  | _ => none

/-- A script: every call as above, and the dynamics of a mode set at most once. -/
structure ScriptOk (ops : List (BuildOp K)) : Prop where
  calls : ∀ op ∈ ops, OpOk op
  once : (ops.filterMap dynTarget).Nodup

end Hylaa.Spec
