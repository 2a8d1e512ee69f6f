import Verif.Model.LpUtil

/-! Inversion lemmas for the exception monad. -/

set_option linter.unusedSectionVars false

namespace Hylaa

theorem bind_ok {α β : Type} {x : Except Err α} {f : α → Except Err β} {b : β} :
    (x >>= f) = .ok b ↔ ∃ a, x = .ok a ∧ f a = .ok b := by
  cases x with
  | error e => simp [bind, Except.bind]
  | ok a => simp [bind, Except.bind]

theorem pure_ok {α : Type} {a b : α} : (pure a : Except Err α) = .ok b ↔ a = b := by
  simp [pure, Except.pure]

theorem ok_ok {α : Type} {a b : α} : (Except.ok a : Except Err α) = .ok b ↔ a = b := by simp

theorem assert_ok {p : Prop} [Decidable p] {u : Unit} : assert p = .ok u ↔ p := by
  unfold assert; split <;> simp_all

theorem need_ok {p : Prop} [Decidable p] {u : Unit} : need p = .ok u ↔ p := by
  unfold need; split <;> simp_all

theorem needSome_ok {α : Type} {o : Option α} {a : α} : needSome o = .ok a ↔ o = some a := by
  unfold needSome; split <;> simp_all

variable {K : Type} [Field K] [LinearOrder K]

theorem setCsr_ok {s s' : Sys K} {c : Csr K} {off : ℕ × ℕ} :
    s.setCsr c off = .ok s' ↔ (off.1 + c.rows.length ≤ s.numRows ∧ off.2 + c.ncols ≤ s.numCols) ∧
      s.setCsrLoop c.rows off.1 off.2 = s' := by
  unfold Sys.setCsr
  split
  · rename_i h
    simp only [reduceCtorEq, false_iff]; omega
  · rename_i h
    simp only [Except.ok.injEq]
    constructor
    · intro h2; exact ⟨by omega, h2⟩
    · intro h2; exact h2.2

theorem setCsc_ok {s s' : Sys K} {c : Csc K} {off : ℕ × ℕ} :
    s.setCsc c off = .ok s' ↔
      (off.1 + c.nrows ≤ s.numRows ∧ off.2 + c.cols.length ≤ s.numCols) ∧
      s.setCscLoop c.cols off.1 off.2 = s' := by
  unfold Sys.setCsc
  split
  · rename_i h
    simp only [reduceCtorEq, false_iff]; omega
  · rename_i h
    simp only [Except.ok.injEq]
    constructor
    · intro h2; exact ⟨by omega, h2⟩
    · intro h2; exact h2.2

theorem setReachVars_ok {s s' : Sys K} {dims : ℕ} {bmPos : ℕ × ℕ} {cur : ℕ}
    {ie : Option (ℕ × ℕ)} :
    s.setReachVars dims bmPos cur ie = .ok s' ↔
      (bmPos.1 + dims ≤ s.numRows ∧ bmPos.2 + 2 * dims ≤ s.numCols ∧
      ieFits ie dims s.numRows s.numCols = true) ∧
      { s with dims, bmPos, cur, ie, bmIdx := mkBmIdx dims bmPos.2 cur ie } = s' := by
  unfold Sys.setReachVars
  split <;> rename_i h <;> simp [h]

theorem addRowsWithTypes_ok {s s' : Sys K} {types : List RowType} {rhs : List K} :
    s.addRowsWithTypes types rhs = .ok s' ↔ types.length = rhs.length ∧
      { s with rows := s.rows ++ (types.zip rhs).map fun p => ⟨p.1, p.2, []⟩ } = s' := by
  unfold Sys.addRowsWithTypes
  split <;> rename_i h <;> simp [h]

end Hylaa
