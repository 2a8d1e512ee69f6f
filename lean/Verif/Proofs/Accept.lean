import Verif.Proofs.SolverLemmas

/-! When `from_constraints` accepts. -/

set_option linter.unusedSectionVars false

namespace Hylaa
variable {K : Type} [Field K] [LinearOrder K]

/-- The throw-away LP of `is_feasible(csr, rhs)`. -/
def feasSys (c : Csr K) (rhs : List K) : Sys K :=
  ((({} : Sys K).addCols ((List.range c.ncols).map fun n => s!"x{n}")).addRowsLE rhs).setCsrLoop
    c.rows 0 0

theorem feasSys_sat {c : Csr K} {rhs : List K} (h : rhs.length = c.nrows) (v : ℕ → K) :
    (feasSys c rhs).Sat v ↔ c.le v rhs := by
  unfold feasSys
  have hl : c.rows.length = rhs.length := h.symm
  have := Sys.setCsrLoop_rows_split
    ((({} : Sys K).addCols ((List.range c.ncols).map fun n => s!"x{n}")).addRowsLE rhs) c.rows 0
    [] (rhs.map fun b => (⟨.up, b, []⟩ : LRow K)) [] (by simp [Sys.addCols, Sys.addRowsLE])
    (by simp [hl])
  simp only [List.nil_append, List.append_nil, List.length_nil] at this
  unfold Sys.Sat
  rw [this]
  constructor
  · intro hv i hi
    have hi2 : i < c.rows.length := by omega
    have h2 := hv _ (List.mem_iff_getElem.2 ⟨i, by simp; omega, rfl⟩)
    rw [List.getElem_zipWith, LRow.holds_iff, LRow.withCoefs_dot] at h2
    simpa [RowType.rel, Csr.row_lt hi2, shiftRow_zero] using h2
  · intro hv r hr
    obtain ⟨i, hi, rfl⟩ := List.getElem_of_mem hr
    simp only [List.length_zipWith, List.length_map] at hi
    have hi2 : i < c.rows.length := by omega
    have := hv i (by omega)
    rw [List.getElem_zipWith, LRow.holds_iff, LRow.withCoefs_dot]
    simpa [RowType.rel, Csr.row_lt hi2, shiftRow_zero] using this

theorem isFeasibleCsr_eq (S : Solver K) {c : Csr K} {rhs : List K} (h : rhs.length = c.nrows) :
    isFeasibleCsr S c rhs =
      (isFeasible S { feasSys c rhs with obj := fun _ => 0 }).map fun r => r.2 := by
  unfold isFeasibleCsr
  have h1 : assert (rhs.length = c.nrows) = .ok () := by rw [assert_ok]; exact h
  have h2 : ((({} : Sys K).addCols ((List.range c.ncols).map fun n => s!"x{n}")).addRowsLE
      rhs).setCsr c = .ok (feasSys c rhs) := by
    rw [setCsr_ok]
    refine ⟨⟨?_, ?_⟩, rfl⟩
    · have : c.rows.length = c.nrows := rfl
      simp [Sys.numRows, Sys.addCols, Sys.addRowsLE]; omega
    · simp [Sys.numCols, Sys.addCols, Sys.addRowsLE]
  rw [h1]
  simp only [bind, Except.bind, h2]
  cases isFeasible S { feasSys c rhs with obj := fun _ => 0 } <;> rfl

theorem isFeasibleCsr_spec {S : Solver K} (hS : S.Honest) {c : Csr K} {rhs : List K} {b : Bool}
    (h : isFeasibleCsr S c rhs = .ok b) : b = true ↔ ∃ x, c.le x rhs := by
  have hl : rhs.length = c.nrows := by
    simp only [isFeasibleCsr, bind_ok, assert_ok] at h
    exact h.choose_spec.1
  rw [isFeasibleCsr_eq S hl] at h
  cases hf : isFeasible S { feasSys c rhs with obj := fun _ => 0 } with
  | error e => rw [hf] at h; simp [Except.map] at h
  | ok r =>
    rw [hf] at h
    simp only [Except.map, Except.ok.injEq] at h
    subst h
    have := (isFeasible_spec hS (b := r.2) (lp' := r.1) hf (by intro j hj; exact absurd rfl hj)).2.2
    rw [this]
    exact exists_congr fun v => feasSys_sat hl v

theorem isFeasibleCsr_complete {S : Solver K} (hS : S.Complete) {c : Csr K} {rhs : List K}
    (hl : rhs.length = c.nrows) :
    ∃ b, isFeasibleCsr S c rhs = .ok b ∧ (b = true ↔ ∃ x, c.le x rhs) := by
  obtain ⟨lp', b, hf, hb⟩ := isFeasible_complete hS (lp := { feasSys c rhs with obj := fun _ => 0 })
    (fun _ => rfl)
  refine ⟨b, ?_, ?_⟩
  · rw [isFeasibleCsr_eq S hl, hf]; rfl
  · rw [hb]; exact exists_congr fun v => feasSys_sat hl v

theorem addRhsRows_ok {s : Sys K} {types : Option (List RowType)} {rhs : List K}
    (htypes : ∀ ts, types = some ts → ts.length = rhs.length) :
    ∃ s1 : Sys K, (match (generalizing := false) types with
      | none => Except.ok (s.addRowsLE rhs)
      | some types => s.addRowsWithTypes types rhs : Except Err (Sys K)) = .ok s1 ∧
      s1.rows.length = s.rows.length + rhs.length ∧ s1.names.length = s.names.length := by
  cases types with
  | none => exact ⟨_, rfl, by simp [Sys.addRowsLE], rfl⟩
  | some ts =>
    have := htypes ts rfl
    exact ⟨_, addRowsWithTypes_ok.2 ⟨this, rfl⟩, by simp [this], rfl⟩

/-- `from_constraints` succeeds exactly when its checks pass. -/
theorem fromConstraints_accepts {S : Solver K} {csr : Csr K} {rhs : List K} {mode : Mode K}
    {types : Option (List RowType)} {names : Option (List String)} {dims? : Option ℕ}
    (hl : csr.nrows = rhs.length) (hf : isFeasibleCsr S csr rhs = .ok true)
    (htn : types.isNone = names.isNone) (hd : dims?.getD csr.ncols ≤ csr.ncols)
    (hnames : ∀ ns, names = some ns → ns.length = csr.ncols)
    (htypes : ∀ ts, types = some ts → ts.length = rhs.length) :
    ∃ lp, fromConstraints S csr rhs mode types names dims? = .ok lp := by
  simp only [fromConstraints, bind_ok, assert_ok, pure_ok, setCsr_ok, setReachVars_ok]
  generalize hdd : dims?.getD csr.ncols = d at *
  have hl' : csr.rows.length = rhs.length := hl
  have hn : (names.getD ((List.range csr.ncols).map fun i => s!"m{mode.id}_i{i}")).length =
      csr.ncols := by
    cases names with
    | none => simp
    | some ns => simpa using hnames ns rfl
  have h1 := addRhsRows_ok (s := ((({} : Sys K).addRowsEqZero d).addCols
        (names.getD ((List.range csr.ncols).map fun i => s!"m{mode.id}_i{i}") ++
          (List.range d).map fun i => s!"m{mode.id}_c{i}"))) htypes
  obtain ⟨s1, hs1, hr, hc⟩ := h1
  replace hr : s1.rows.length = d + rhs.length := by
    rw [hr]; simp [Sys.addCols, Sys.addRowsEqZero]
  replace hc : s1.names.length = csr.ncols + d := by
    rw [hc]
    simp only [Sys.addCols, Sys.addRowsEqZero, List.nil_append,
          List.length_append, hn, List.length_map, List.length_range]
  by_cases hin : mode.inputs.isSome = true
  · simp only [hin, if_true, setCsr_ok]
    refine ⟨_, (), hl, true, hf, (), rfl, (), htn, (), hd, s1, hs1, _, ⟨⟨?_, ?_⟩, rfl⟩, _,
      ⟨⟨?_, ?_⟩, rfl⟩, _, ⟨⟨?_, ?_⟩, rfl⟩, _, ⟨⟨?_, ?_, ?_⟩, rfl⟩, rfl⟩
    all_goals simp [Sys.numRows, Sys.numCols, Sys.addCols, Sys.addRowsEqZero, basisBlock, negId, hr,
      hc, hl', ieFits]
    all_goals omega
  · simp only [Bool.not_eq_true] at hin
    simp only [hin, Bool.false_eq_true, if_false]
    refine ⟨_, (), hl, true, hf, (), rfl, (), htn, (), hd, s1, hs1, _, ⟨⟨?_, ?_⟩, rfl⟩, _,
      ⟨⟨?_, ?_⟩, rfl⟩, _, rfl, _, ⟨⟨?_, ?_, ?_⟩, rfl⟩, rfl⟩
    all_goals simp [Sys.numRows, Sys.numCols, basisBlock, hr,
      hc, hl', ieFits]
    all_goals omega

theorem fromConstraints_mem {S : Solver K} {csr : Csr K} {rhs : List K} {mode : Mode K}
    {types : Option (List RowType)} {names : Option (List String)} {dims? : Option ℕ} {lp : Lp K}
    (h : fromConstraints S csr rhs mode types names dims? = .ok lp)
    (hnames : ∀ ns, names = some ns → ns.length = csr.ncols) (hwf : csr.WF) (x : ℕ → K) :
    lp.Mem x ↔ ∃ y, csr.satTypes (typesOr types rhs.length) rhs y ∧
      ∀ i < dims?.getD csr.ncols, x i = y i := by
  obtain ⟨hsh, hrest⟩ := fromConstraints_shape h hnames hwf
  obtain ⟨-, -, -, -, -, hdims, hbm, -⟩ := fromConstraints_ok h hnames
  rw [hsh.mem_iff]
  apply exists_congr
  intro v
  rw [hrest, hdims]
  apply and_congr_right
  intro _
  have hsum : ∀ i < dims?.getD csr.ncols, (∑ j ∈ Finset.range (dims?.getD csr.ncols),
      (if i = j then (1 : K) else 0) * v (lp.bmPos.2 + j)) = v i := by
    intro i hi
    simp only [ite_mul, one_mul, zero_mul, hbm, Nat.zero_add]
    rw [Finset.sum_ite_eq, if_pos (Finset.mem_range.2 hi)]
  constructor
  · intro hx i hi
    have := hx i hi
    rw [this, hsum i hi]; simp
  · intro hx i hi
    rw [hsum i hi, hx i hi]; simp

end Hylaa
