import Verif.Proofs.Shape

/-! `from_constraints`: explicit rows, layout, represented set. -/

set_option linter.unusedSectionVars false

namespace Hylaa
variable {K : Type} [Field K] [LinearOrder K]

/-- Meaning of a row type. -/
def RowType.rel (t : RowType) (a b : K) : Prop :=
  match t with
  | .fx => a = b
  | .up => a ≤ b
  | .lo => b ≤ a

theorem LRow.holds_iff (r : LRow K) (v : ℕ → K) : r.holds v ↔ r.ty.rel (dot r.coefs v) r.rhs := by
  unfold LRow.holds RowType.rel; cases r.ty <;> rfl

theorem zipWith_replicate_map {α β γ : Type} (n : ℕ) (a : α) (g : ℕ → β) (f : α → β → γ) :
    List.zipWith f (List.replicate n a) ((List.range n).map g) =
      (List.range n).map fun i => f a (g i) := by
  apply List.ext_getElem
  · simp
  · intro i h1 h2; simp

theorem basisRows_set (s : Sys K) (d ncols : ℕ) (b : Bool) (mid : List (LRow K))
    (crows : List (SRow K)) (h : s.rows = List.replicate d ⟨.fx, 0, []⟩ ++ mid)
    (hlen : mid.length = crows.length) :
    ((s.setCsrLoop (basisBlock ncols d b).rows 0 0).setCsrLoop crows d 0).rows =
      ((List.range d).map fun i => (⟨.fx, 0, []⟩ : LRow K).withCoefs (shiftRow 0
        ([(i, 1), (ncols + i, -1)] ++ if b then [(ncols + d + i, 1)] else []))) ++
      List.zipWith (fun r c => LRow.withCoefs r (shiftRow 0 c)) mid crows := by
  have hr1 : s.rows = [] ++ List.replicate d ⟨.fx, 0, []⟩ ++ mid := by simpa using h
  have hr2 := Sys.setCsrLoop_rows_split _ (basisBlock ncols d b).rows 0 _ _ _ hr1
    (by simp [basisBlock])
  simp only [List.length_nil, basisBlock, zipWith_replicate_map, List.nil_append] at hr2
  have hr3 := Sys.setCsrLoop_rows_split _ crows 0 _ _ [] (by rw [hr2, List.append_nil]) hlen
  simpa [basisBlock] using hr3

theorem ieRows_set (s : Sys K) (d c0 : ℕ) :
    ((s.addRowsEqZero d).setCsrLoop (negId d).rows s.rows.length c0).rows =
      s.rows ++ (List.range d).map fun i => (⟨.fx, 0, []⟩ : LRow K).withCoefs
        (shiftRow c0 [(i, -1)]) := by
  have := Sys.setCsrLoop_rows_split (s.addRowsEqZero d) (negId d).rows c0 s.rows
    (List.replicate d ⟨.fx, 0, []⟩) [] (by simp [Sys.addRowsEqZero]) (by simp [negId])
  simpa [negId, zipWith_replicate_map] using this

/-- Row types used when none are given: all `<=`. -/
def typesOr (types : Option (List RowType)) (n : ℕ) : List RowType :=
  types.getD (List.replicate n .up)

/-- The result of `from_constraints`, explicitly. -/
theorem fromConstraints_ok {S : Solver K} {csr : Csr K} {rhs : List K} {mode : Mode K}
    {types : Option (List RowType)} {names : Option (List String)} {dims? : Option ℕ} {lp : Lp K}
    (h : fromConstraints S csr rhs mode types names dims? = .ok lp)
    (hnames : ∀ ns, names = some ns → ns.length = csr.ncols) :
    let d := dims?.getD csr.ncols
    d ≤ csr.ncols ∧ csr.rows.length = rhs.length ∧ isFeasibleCsr S csr rhs = .ok true ∧
    (typesOr types rhs.length).length = rhs.length ∧
    lp.names.length = csr.ncols + d + (if mode.inputs.isSome then d else 0) ∧
    lp.dims = d ∧ lp.bmPos = (0, 0) ∧ lp.cur = csr.ncols ∧
    lp.ie = (if mode.inputs.isSome then some (d + rhs.length, csr.ncols + d) else none) ∧
    lp.bmIdx = mkBmIdx lp.dims lp.bmPos.2 lp.cur lp.ie ∧
    lp.rows = ((List.range d).map fun i => (⟨.fx, 0, []⟩ : LRow K).withCoefs (shiftRow 0
        ([(i, 1), (csr.ncols + i, -1)] ++
          if mode.inputs.isSome then [(csr.ncols + d + i, 1)] else []))) ++
      List.zipWith (fun r c => LRow.withCoefs r (shiftRow 0 c))
        (((typesOr types rhs.length).zip rhs).map fun p => (⟨p.1, p.2, []⟩ : LRow K)) csr.rows ++
      (if mode.inputs.isSome then (List.range d).map fun i =>
        (⟨.fx, 0, []⟩ : LRow K).withCoefs (shiftRow (csr.ncols + d) [(i, -1)]) else []) ∧
    lp.obj = (fun _ => 0) ∧ lp.objCols = [] := by
  intro d
  simp only [fromConstraints, bind_ok, assert_ok, pure_ok, setCsr_ok, setReachVars_ok] at h
  obtain ⟨_, h1, feas, h2, _, rfl, _, h3, _, h4, s1, h5, s2, ⟨h6, rfl⟩, s3, ⟨h7, rfl⟩, s4, h8,
    s5, ⟨h9, rfl⟩, rfl⟩ := h
  clear h3 h6 h7 h9
  have hty : s1.rows = List.replicate d ⟨.fx, 0, []⟩ ++
      (((typesOr types rhs.length).zip rhs).map fun p => (⟨p.1, p.2, []⟩ : LRow K)) ∧
      (typesOr types rhs.length).length = rhs.length ∧ s1.names.length = csr.ncols + d := by
    have hn : (names.getD ((List.range csr.ncols).map fun i => s!"m{mode.id}_i{i}")).length =
        csr.ncols := by
      cases names with
      | none => simp
      | some ns => simpa using hnames ns rfl
    cases types with
    | none =>
      simp only [Except.ok.injEq] at h5
      subst h5
      refine ⟨?_, by simp [typesOr], by
        simp only [Sys.addCols, Sys.addRowsLE, Sys.addRowsEqZero, List.length_append, hn,
          List.length_map, List.length_range, List.nil_append]; rfl⟩
      simp only [Sys.addRowsLE, Sys.addCols, Sys.addRowsEqZero, List.nil_append, typesOr,
        Option.getD_none]
      congr 1
      apply List.ext_getElem
      · simp
      · intro i h1 h2; simp
    | some ts =>
      simp only [addRowsWithTypes_ok] at h5
      obtain ⟨h5, rfl⟩ := h5
      refine ⟨?_, by simp [typesOr, h5], by
        simp only [Sys.addCols, Sys.addRowsEqZero, List.length_append, hn,
          List.length_map, List.length_range, List.nil_append]; rfl⟩
      simp [Sys.addCols, Sys.addRowsEqZero, typesOr, d]
  obtain ⟨hrows, htl, hnm⟩ := hty
  have hlen : (((typesOr types rhs.length).zip rhs).map fun p => (⟨p.1, p.2, []⟩ : LRow K)).length
      = csr.rows.length := by
    have : csr.rows.length = rhs.length := h1
    simp [htl, this]
  refine ⟨h4, h1, h2, htl, ?_⟩
  have h1' : csr.rows.length = rhs.length := h1
  by_cases hin : mode.inputs.isSome = true
  · simp only [hin, if_true, setCsr_ok] at h8 ⊢
    obtain ⟨_, rfl⟩ := h8
    have hA := basisRows_set (s1.addCols ((List.range d).map fun i => s!"m{mode.id}_ti{i}")) d
      csr.ncols true _ csr.rows (by simpa only [Sys.addCols] using hrows) hlen
    refine ⟨by simp [Sys.addCols, Sys.addRowsEqZero, hnm, d], rfl, trivial, trivial, ?_, trivial,
      ?_, trivial, trivial⟩
    · simp only [Sys.numRows, Sys.setCsrLoop_length, Sys.addCols, hrows, Option.some.injEq,
        Prod.mk.injEq, List.length_append, List.length_replicate, hlen, h1']
      exact ⟨by trivial, by rw [Nat.add_comm]⟩
    · refine (ieRows_set _ d (d + csr.ncols)).trans ?_
      rw [Nat.add_comm csr.ncols d]
      refine congrArg (fun l => l ++ _) (hA.trans ?_)
      simp only [if_true, Nat.add_comm]
  · simp only [Bool.not_eq_true] at hin
    simp only [hin, Bool.false_eq_true, if_false, Except.ok.injEq] at h8 ⊢
    subst h8
    have hA := basisRows_set s1 d csr.ncols false _ csr.rows hrows hlen
    refine ⟨by simp [hnm, d], rfl, trivial, trivial, trivial, trivial, ?_, trivial, trivial⟩
    rw [List.append_nil]
    refine hA.trans ?_
    simp only [Bool.false_eq_true, if_false]

/-- The point satisfies all rows of the constraint system passed to `from_constraints`. -/
def Csr.satTypes (c : Csr K) (types : List RowType) (rhs : List K) (x : ℕ → K) : Prop :=
  ∀ i (h : i < rhs.length), (types.getD i .up).rel (dot (c.row i) x) rhs[i]

theorem fromConstraints_shape {S : Solver K} {csr : Csr K} {rhs : List K} {mode : Mode K}
    {types : Option (List RowType)} {names : Option (List String)} {dims? : Option ℕ} {lp : Lp K}
    (h : fromConstraints S csr rhs mode types names dims? = .ok lp)
    (hnames : ∀ ns, names = some ns → ns.length = csr.ncols) (hwf : csr.WF) :
    lp.Shape (fun i j => if i = j then 1 else 0) (fun _ => []) (fun _ => []) ∧
    (∀ v, lp.Rest v ↔ csr.satTypes (typesOr types rhs.length) rhs v) := by
  obtain ⟨hd, h1, -, htl, hnm, hdims, hbm, hcur, hie, hidx, hrows, -, -⟩ :=
    fromConstraints_ok h hnames
  generalize hdd : dims?.getD csr.ncols = d at *
  generalize hty : typesOr types rhs.length = ts at *
  -- rows by index
  have hb : ∀ i < d, lp.rows[i]? = some ((⟨.fx, 0, []⟩ : LRow K).withCoefs (shiftRow 0
        ([(i, 1), (csr.ncols + i, -1)] ++
          if mode.inputs.isSome then [(csr.ncols + d + i, 1)] else []))) := by
    intro i hi
    rw [hrows, List.append_assoc, List.getElem?_append_left (by simpa using hi)]
    simp [hi]
  have hmid : ∀ (i : ℕ) (hi : i < rhs.length), lp.rows[d + i]? =
      some ((⟨ts[i]'(by omega), rhs[i], []⟩ : LRow K).withCoefs (shiftRow 0 (csr.row i))) := by
    intro i hi
    have hi2 : i < csr.rows.length := by omega
    have hi3 : i < ts.length := by omega
    rw [hrows, List.append_assoc, List.getElem?_append_right (by simp),
      List.getElem?_append_left (by simp; omega)]
    simp [hi, hi2, hi3, List.getElem?_zipWith, List.getElem?_eq_getElem]
  have hlast : mode.inputs.isSome = true → ∀ i < d, lp.rows[d + rhs.length + i]? =
      some ((⟨.fx, 0, []⟩ : LRow K).withCoefs (shiftRow (csr.ncols + d) [(i, -1)])) := by
    intro hin i hi
    have hl : (List.zipWith (fun r c => LRow.withCoefs r (shiftRow 0 c))
        ((ts.zip rhs).map fun p => (⟨p.1, p.2, []⟩ : LRow K)) csr.rows).length = rhs.length := by
      simp; omega
    rw [hrows, List.getElem?_append_right (by rw [List.length_append, hl]; simp), if_pos hin,
      List.length_append, hl]
    simp [hi]
  have hlen : lp.rows.length = d + rhs.length + (if mode.inputs.isSome then d else 0) := by
    have hl : (List.zipWith (fun r c => LRow.withCoefs r (shiftRow 0 c))
        ((ts.zip rhs).map fun p => (⟨p.1, p.2, []⟩ : LRow K)) csr.rows).length = rhs.length := by
      simp; omega
    rw [hrows, List.length_append, List.length_append, hl]
    split <;> simp
  have hcases : ∀ (i : ℕ) (r : LRow K), lp.rows[i]? = some r → (i < d) ∨
      (∃ j, ∃ hj : j < rhs.length, i = d + j) ∨
      (mode.inputs.isSome = true ∧ ∃ j < d, i = d + rhs.length + j) := by
    intro i r hi
    have hil : i < lp.rows.length := by
      by_contra hc
      rw [List.getElem?_eq_none (by omega)] at hi; cases hi
    rw [hlen] at hil
    by_cases hc1 : i < d
    · exact Or.inl hc1
    by_cases hc2 : i < d + rhs.length
    · exact Or.inr (Or.inl ⟨i - d, by omega, by omega⟩)
    · right; right
      by_cases hin : mode.inputs.isSome = true
      · rw [if_pos hin] at hil
        exact ⟨hin, i - (d + rhs.length), by omega, by omega⟩
      · rw [if_neg hin] at hil; omega
  have hspec : ∀ i, lp.special i ↔ i < d ∨ (mode.inputs.isSome = true ∧
      d + rhs.length ≤ i ∧ i < d + rhs.length + d) := by
    intro i
    unfold Sys.special
    rw [hbm, hdims, hie]
    by_cases hin : mode.inputs.isSome = true
    · simp [hin]
    · simp [hin]
  have hblk : lp.blockLen = (if mode.inputs.isSome then 2 * d else d) := by
    unfold Sys.blockLen; rw [hie, hdims]
    by_cases hin : mode.inputs.isSome = true <;> simp [hin]
  have hisS : lp.ie.isSome = mode.inputs.isSome := by
    rw [hie]; by_cases hin : mode.inputs.isSome = true <;> simp [hin]
  have hcrow : ∀ j < rhs.length, ∀ q ∈ csr.row j, q.1 < csr.ncols := by
    intro j hj q hq
    have : j < csr.rows.length := by omega
    rw [Csr.row_lt this] at hq
    exact hwf _ (List.getElem_mem this) q hq
  refine ⟨⟨?_, ?_, ?_, ?_, ?_, hidx, ?_, ?_, ?_, ?_, ?_, ?_⟩, ?_⟩
  · intro r hr p hp
    obtain ⟨i, hir⟩ := List.getElem?_of_mem hr
    unfold Sys.numCols
    rw [hnm]
    rcases hcases i _ hir with hc | ⟨j, hj, rfl⟩ | ⟨hin, j, hj, rfl⟩
    · rw [hb i hc] at hir
      cases hir
      have hp2 := LRow.withCoefs_mem hp
      by_cases hin : mode.inputs.isSome = true
      · simp only [hin, if_true, shiftRow] at hp2
        simp at hp2
        rw [if_pos hin]
        rcases hp2 with rfl | rfl | rfl <;> simp <;> omega
      · simp only [hin, shiftRow] at hp2
        simp at hp2
        rw [if_neg hin]
        rcases hp2 with rfl | rfl <;> simp <;> omega
    · rw [hmid j hj] at hir
      cases hir
      have hp2 := LRow.withCoefs_mem hp
      simp only [shiftRow, List.mem_map] at hp2
      obtain ⟨q, hq, rfl⟩ := hp2
      have := hcrow j hj q hq
      simp only; omega
    · rw [hlast hin j hj] at hir
      cases hir
      have hp2 := LRow.withCoefs_mem hp
      simp only [shiftRow] at hp2
      simp at hp2
      rw [if_pos hin, hp2]; simp only; omega
  · unfold Sys.numRows; rw [hlen, hbm, hdims]; simp only; omega
  · rw [hbm, hcur, hdims]; simp only; omega
  · unfold Sys.numCols; rw [hnm, hblk, hcur]
    by_cases hin : mode.inputs.isSome = true <;> simp [hin] <;> omega
  · intro p hp
    rw [hie] at hp
    by_cases hin : mode.inputs.isSome = true
    · rw [if_pos hin] at hp; cases hp
      unfold Sys.numRows
      rw [hcur, hdims, hbm, hlen, if_pos hin]; refine ⟨rfl, ?_, ?_⟩ <;> simp only <;> omega
    · rw [if_neg hin] at hp; cases hp
  · intro i hi
    rw [hdims] at hi
    refine ⟨_, by rw [hbm]; simpa using hb i hi, rfl, rfl, fun v => ?_⟩
    rw [LRow.withCoefs_dot, hbm, hcur, hdims, hisS]
    simp only [dot_shiftRow, Nat.zero_add, ite_mul, one_mul, zero_mul]
    rw [Finset.sum_ite_eq, if_pos (Finset.mem_range.2 hi)]
    by_cases hin : mode.inputs.isSome = true
    · simp [hin]; ring
    · simp [hin]; ring
  · intro p hp i hi
    rw [hie] at hp
    by_cases hin : mode.inputs.isSome = true
    · rw [if_pos hin] at hp; cases hp
      rw [hdims] at hi
      refine ⟨_, hlast hin i hi, rfl, rfl, fun v => ?_⟩
      rw [LRow.withCoefs_dot, hcur, hdims]
      simp
    · rw [if_neg hin] at hp; cases hp
  · intro _ _; rfl
  · intro i q hq; simp at hq
  · intro i q hq; simp at hq
  · intro i r hir hs q hq
    rw [hspec] at hs
    rcases hcases i _ hir with hc | ⟨j, hj, rfl⟩ | ⟨hin, j, hj, rfl⟩
    · exact absurd (Or.inl hc) hs
    · rw [hmid j hj] at hir
      cases hir
      have hp2 := LRow.withCoefs_mem hq
      simp only [shiftRow, List.mem_map] at hp2
      obtain ⟨q', hq', rfl⟩ := hp2
      have := hcrow j hj q' hq'
      unfold Sys.inBlock; rw [hcur]; simp only; omega
    · exact absurd (Or.inr ⟨hin, by omega, by omega⟩) hs
  · intro v
    constructor
    · intro hv i hi
      have := hv (d + i) _ (hmid i hi) (by rw [hspec]; omega)
      rw [LRow.holds_iff, LRow.withCoefs_dot] at this
      have hi3 : i < ts.length := by omega
      simpa [dot_shiftRow, List.getD_eq_getElem?_getD, hi3] using this
    · intro hv i r hir hs
      rw [hspec] at hs
      rcases hcases i _ hir with hc | ⟨j, hj, rfl⟩ | ⟨hin, j, hj, rfl⟩
      · exact absurd (Or.inl hc) hs
      · rw [hmid j hj] at hir
        cases hir
        rw [LRow.holds_iff, LRow.withCoefs_dot]
        have := hv j hj
        have hi3 : j < ts.length := by omega
        simpa [dot_shiftRow, List.getD_eq_getElem?_getD, hi3] using this
      · exact absurd (Or.inr ⟨hin, by omega, by omega⟩) hs

end Hylaa
