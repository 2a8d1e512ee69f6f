import Verif.Proofs.Replace

/-!
# API histories

`Hist S lp ρ rows`: `lp` is an LP instance obtained by a sequence of library calls, `ρ` is the
textbook description of the set those calls ask for, and `rows` are the constraint rows returned
by `add_init_constraint` since the last reset.
-/

set_option linter.unusedSectionVars false

namespace Hylaa
open Spec
variable {K : Type} [Field K] [LinearOrder K]

theorem minimizeOnce_keeps {S : Solver K} {lp lp' : Lp K} {dir : Option (List K)}
    {columns : Option (List ℕ)} {r : Option (List K)}
    (h : minimizeOnce S lp dir columns = .ok (lp', r)) :
    lp'.toSys = lp.toSys ∧ (lp.ObjInv → lp'.ObjInv) := by
  unfold minimizeOnce at h
  cases hd : setDirOpt lp dir with
  | error e => rw [hd] at h; cases h
  | ok lp1 =>
    rw [hd] at h
    simp only at h
    obtain ⟨_, _, _, _, hsp⟩ := solveRetry_spec S lp1
    split at h
    · cases h
    · simp only [Except.ok.injEq, Prod.mk.injEq] at h
      obtain ⟨rfl, rfl⟩ := h
      have h1 := setDirOpt_toSys hd
      refine ⟨by rw [← hsp.1, h1], fun hi => ?_⟩
      have : lp1.ObjInv := by
        cases dir with
        | none => cases hd; exact hi
        | some d => exact (setMinDir_obj hd hi).1
      intro j hj
      rw [← hsp.2.1] at hj
      rw [← hsp.2.2]; exact this j hj

theorem minimize_keeps {S : Solver K} {lp lp' : Lp K} {dir : Option (List K)}
    {columns : Option (List ℕ)} {f : Bool} {r : Option (List K)}
    (h : minimize S lp dir columns f = .ok (lp', r)) :
    lp'.toSys = lp.toSys ∧ (lp.ObjInv → lp'.ObjInv) := by
  unfold minimize at h
  cases hm : minimizeOnce S lp dir columns with
  | error e => rw [hm] at h; cases h
  | ok p =>
    obtain ⟨lp1, r1⟩ := p
    rw [hm] at h
    have h1 := minimizeOnce_keeps hm
    cases r1 with
    | some l =>
      simp only [Except.ok.injEq, Prod.mk.injEq] at h
      obtain ⟨rfl, -⟩ := h; exact h1
    | none =>
      simp only at h
      split at h
      · cases hm2 : minimizeOnce S { lp1 with ws := S.cpxBasis lp1 } dir columns with
        | error e => rw [hm2] at h; cases h
        | ok p =>
          obtain ⟨lp2, r2⟩ := p
          have h2 := minimizeOnce_keeps hm2
          rw [hm2] at h
          cases r2 with
          | none => cases h
          | some l =>
            simp only [Except.ok.injEq, Prod.mk.injEq] at h
            obtain ⟨rfl, -⟩ := h
            exact ⟨h2.1.trans h1.1, fun hi => h2.2 (h1.2 hi)⟩
      · simp only [Except.ok.injEq, Prod.mk.injEq] at h
        obtain ⟨rfl, -⟩ := h; exact h1

theorem clone_ok {lp lp' : Lp K} (h : lp.clone = .ok lp') :
    lp' = { lp with bmIdx := mkBmIdx lp.dims lp.bmPos.2 lp.cur lp.ie } := by
  unfold Lp.clone at h
  split at h
  · rename_i s hs
    rw [setReachVars_ok] at hs
    simp only [Except.ok.injEq] at h
    rw [← h, ← hs.2]
  · cases h

theorem trans_repr {s s1 s2 : Sys K} {ρ : Rep K} {mid ti : ℕ} {c : Csr K} {rhs : List K}
    {reset mink minkC : Option (Csr K)} {minkRhs : Option (List K)} {b : Bool} (hs : s.Repr ρ)
    (hg : addCurtimeConstraints s c rhs = .ok s1) (hclen : c.rows.length = rhs.length)
    (hcwf : c.WF) (hcn : c.ncols ≤ ρ.n)
    (h : addResetVariables s1 mid ti reset mink minkC minkRhs b = .ok s2)
    (hne : reset.isSome → (reset.getD ⟨0, []⟩).rows ≠ [])
    (hd : 0 < ρ.n) (hrwf : ∀ r, reset = some r → r.WF)
    (hmwf : ∀ m, mink = some m → m.WF) (hmcwf : ∀ m, minkC = some m → m.WF)
    (hmc : ∀ m c, mink = some m → minkC = some c → c.ncols = m.ncols) :
    s2.Repr (Rep.ofSet (reset.getD (Csr.id ρ.n)).nrows (ρ.Post c rhs (reset.getD (Csr.id ρ.n))
      (minkArgs mink minkC minkRhs).m (minkArgs mink minkC minkRhs).c
      (minkArgs mink minkC minkRhs).rhs)) := by
  obtain ⟨hwf1, hsv, hnm, -, -⟩ := addCurtimeConstraints_ok hg hclen hcwf hs.wf
  have hmem1 := addCurtimeConstraints_mem hg hclen hcwf (by rw [hs.n]; exact hcn) hs.wf
  have hd1 : s1.dims = ρ.n := by rw [hsv.dims]; exact hs.n
  have hcur1 : s1.cur + s1.dims ≤ s1.numCols := by
    rw [hsv.cur, hsv.dims]; unfold Sys.numCols; rw [hnm]; exact hs.curLe
  obtain ⟨hsh, hdims, hbm, hie, hrd, -, hncols⟩ := addResetVariables_shape h hwf1 hcur1 hne
    (by rw [hd1]; exact hd) hrwf hmwf hmcwf hmc
  have hmem2 := addResetVariables_mem h hwf1 hcur1 hne (by rw [hd1]; exact hd) hrwf hmwf hmcwf hmc
  rw [hd1] at hdims hmem2
  refine ⟨hdims, ⟨_, _, hsh, fun _ _ => rfl, fun i _ v => by simp [inSum, Rep.ofSet]⟩, ?_,
    fun _ => rfl, ?_⟩
  · intro hi
    rw [hncols]; unfold Sys.blockLen Sys.inBase; rw [if_pos hi]; simp [Rep.ofSet]
  · intro y u
    have e1 : s2.Mem y ↔ ∃ v, s2.Rest v ∧ ∀ i < s2.dims, v (s2.bmPos.2 + i) = y i := by
      rw [hsh.mem_iff]
      apply exists_congr; intro v
      apply and_congr_right; intro _
      apply forall_congr'; intro i
      apply imp_congr_right; intro hi
      simp only [ite_mul, one_mul, zero_mul]
      rw [Finset.sum_ite_eq, if_pos (Finset.mem_range.2 hi)]
      simp [eq_comm]
    have e2 : (∃ z, ρ.Post c rhs (reset.getD (Csr.id ρ.n))
      (minkArgs mink minkC minkRhs).m (minkArgs mink minkC minkRhs).c
      (minkArgs mink minkC minkRhs).rhs z ∧ EqOn (reset.getD (Csr.id ρ.n)).nrows y z) ↔
      s2.Mem y := by
      refine Iff.trans ?_ (hmem2 y).symm
      constructor
      · rintro ⟨z, ⟨x, w, h1, h2, h3, h4⟩, hyz⟩
        exact ⟨x, w, (hmem1 x).2 ⟨(hs.mem x).2 h1, h2⟩, h3, fun i hi => by
          rw [hyz i hi]; exact h4 i hi⟩
      · rintro ⟨x, w, h1, h2, h3⟩
        obtain ⟨h4, h5⟩ := (hmem1 x).1 h1
        exact ⟨y, ⟨x, w, (hs.mem x).1 h4, h5, h2, h3⟩, fun _ _ => rfl⟩
    show (∃ z, _ ∧ _) ↔ _
    rw [e2, e1, hdims]
    simp [Rep.ofSet, Csr.nrows]

/-- Histories of library calls building and advancing one state set. -/
inductive Hist (S : Solver K) : Lp K → Rep K → List ℕ → Prop
  /-- `from_constraints` (and everything built on it: boxes, zonotopes, aggregates, sums) -/
  | construct {csr rhs mode types names dims? lp} :
      fromConstraints S csr rhs mode types names dims? = .ok lp →
      (∀ ns, names = some ns → ns.length = csr.ncols) → csr.WF →
      Hist S lp (Rep.ofSet (dims?.getD csr.ncols)
        (Typed csr (types.getD (List.replicate rhs.length .up)) rhs)) []
  /-- any optimisation -/
  | minimize {lp ρ rows dir columns f lp' r} : Hist S lp ρ rows →
      minimize S lp dir columns f = .ok (lp', r) → Hist S lp' ρ rows
  /-- setting an objective -/
  | direction {lp ρ rows nc row off lp'} : Hist S lp ρ rows →
      lp.setMinDirCsr nc row off = .ok lp' → Hist S lp' ρ rows
  /-- GLPK's basis (warm-start state) may change at any time -/
  | warm {lp ρ rows} (w : ℕ) : Hist S lp ρ rows → Hist S { lp with ws := w } ρ rows
  | clone {lp ρ rows lp'} : Hist S lp ρ rows → lp.clone = .ok lp' → Hist S lp' ρ rows
  | setBasis {lp ρ rows M s} : Hist S lp ρ rows → setBasisMatrix lp.toSys M = .ok s →
      Hist S { lp with toSys := s } (ρ.setBasis M) rows
  | addInput {lp ρ rows N mode inp s} : Hist S lp ρ rows →
      addInputEffects lp.toSys N mode none = .ok s → mode.inputs = some inp →
      (ρ.Ns = [] ∨ ρ.m = inp.b.ncols) →
      Hist S { lp with toSys := s } (ρ.addInput N inp.b.ncols inp.Ok) rows
  /-- with the LGG bloating term -/
  | addInputLgg {lp ρ rows N mode inp β s} : Hist S lp ρ rows →
      addInputEffects lp.toSys N mode (some β) = .ok s → mode.inputs = some inp → inp.WF →
      (ρ.Ns = [] ∨ ρ.m = inp.b.ncols + ρ.n) →
      Hist S { lp with toSys := s } (ρ.addInput N (inp.b.ncols + ρ.n) (inp.OkLgg ρ.n β)) rows
  | addInit {lp ρ rows vec rhs bm ies s row} : Hist S lp ρ rows →
      addInitConstraint lp.toSys vec rhs bm ies none = .ok (s, row) → bm.nr = ρ.n →
      (∀ N ∈ ies.getD [], N.nc = ρ.m) → (ies.getD []).length ≤ ρ.Ns.length →
      Hist S { lp with toSys := s } (ρ.addInit vec rhs bm (ies.getD [])) (row :: rows)
  | tryReplace {lp ρ rows dm old vec rhs bm ies lp' row rep} : Hist S lp ρ rows →
      tryReplaceInitConstraint S dm lp old vec rhs bm ies = .ok (lp', row, rep) → old ∈ rows →
      bm.nr = ρ.n → (∀ N ∈ ies.getD [], N.nc = ρ.m) → (ies.getD []).length ≤ ρ.Ns.length →
      Hist S lp' (ρ.addInit vec rhs bm (ies.getD [])) rows
  /-- a transition: guard intersection, then reset and Minkowski sum -/
  | trans {lp ρ rows c rhs s1 mid ti reset mink minkC minkRhs b s2} : Hist S lp ρ rows →
      addCurtimeConstraints lp.toSys c rhs = .ok s1 → c.rows.length = rhs.length → c.WF →
      c.ncols ≤ ρ.n → addResetVariables s1 mid ti reset mink minkC minkRhs b = .ok s2 →
      (reset.isSome → (reset.getD ⟨0, []⟩).rows ≠ []) → 0 < ρ.n →
      (∀ r, reset = some r → r.WF) → (∀ m, mink = some m → m.WF) →
      (∀ m, minkC = some m → m.WF) →
      (∀ m c, mink = some m → minkC = some c → c.ncols = m.ncols) →
      Hist S { lp with toSys := s2 } (Rep.ofSet (reset.getD (Csr.id ρ.n)).nrows
        (ρ.Post c rhs (reset.getD (Csr.id ρ.n)) (minkArgs mink minkC minkRhs).m
          (minkArgs mink minkC minkRhs).c (minkArgs mink minkC minkRhs).rhs)) []

theorem satTypes_iff_typed (csr : Csr K) (types : Option (List RowType)) (rhs : List K) :
    csr.satTypes (typesOr types rhs.length) rhs =
      Typed csr (types.getD (List.replicate rhs.length .up)) rhs := by
  funext x
  unfold Csr.satTypes Typed
  apply propext
  apply forall_congr'; intro i
  apply forall_congr'; intro hi
  have : typesOr types rhs.length = types.getD (List.replicate rhs.length .up) := by
    cases types <;> rfl
  rw [this]
  cases ((types.getD (List.replicate rhs.length .up)).getD i .up) <;> rfl

/-- Invariant of all histories. -/
theorem Hist.inv [IsStrictOrderedRing K] {S : Solver K} (hS : S.Honest) {lp : Lp K} {ρ : Rep K}
    {rows : List ℕ} (h : Hist S lp ρ rows) : lp.Repr ρ ∧ lp.ObjInv ∧ ∀ i ∈ rows, lp.UpRow i := by
  induction h with
  | construct h hn hwf =>
    refine ⟨?_, ?_, by simp⟩
    · rw [← satTypes_iff_typed]; exact fromConstraints_repr h hn hwf
    · obtain ⟨-, -, -, -, -, -, -, -, -, -, -, ho, -⟩ := fromConstraints_ok h hn
      intro j hj; rw [ho] at hj; exact absurd rfl hj
  | minimize _ hm ih =>
    obtain ⟨h1, h2⟩ := minimize_keeps hm
    rw [h1]; exact ⟨ih.1, h2 ih.2.1, ih.2.2⟩
  | direction _ hm ih =>
    obtain ⟨h1, h2, -⟩ := setMinDirCsr_spec hm ih.2.1
    rw [h2]; exact ⟨ih.1, h1, ih.2.2⟩
  | warm w _ ih => exact ih
  | clone _ hc ih =>
    have hc := clone_ok hc
    obtain ⟨X, R, hsh, -⟩ := ih.1.shape
    have : ∀ (s : Sys K), s.bmIdx = mkBmIdx s.dims s.bmPos.2 s.cur s.ie →
        { s with bmIdx := mkBmIdx s.dims s.bmPos.2 s.cur s.ie } = s := by
      intro s hs; cases s; simp_all
    rw [hc, this _ hsh.idx]; exact ih
  | setBasis _ hb ih =>
    obtain ⟨X, R, hsh, -⟩ := ih.1.shape
    obtain ⟨-, hsv, -, -, -, -, -, hkeep⟩ := setBasisMatrix_shape hb hsh
    refine ⟨setBasisMatrix_repr hb ih.1, ih.2.1, fun i hi => ?_⟩
    obtain ⟨r, hr, h1, h2, h3⟩ := ih.2.2 i hi
    exact ⟨r, by rw [← hr]; exact hkeep i h3, h1, h2, by rw [hsv.special]; exact h3⟩
  | addInput _ ha hin hm ih =>
    obtain ⟨X, R, hsh, -⟩ := ih.1.shape
    have hsv := (addInputEffects_shape ha hin hsh).2.1
    exact ⟨addInputEffects_repr ha hin hm ih.1, ih.2.1, fun i hi =>
      addInput_up ha hsh.wf hsv (ih.2.2 i hi)⟩
  | addInputLgg _ ha hin hwf hm ih =>
    obtain ⟨X, R, hsh, -⟩ := ih.1.shape
    have hsv := (addInputEffects_lgg_shape ha hin hwf hsh).2.1
    exact ⟨addInputEffects_lgg_repr ha hin hwf hm ih.1, ih.2.1, fun i hi =>
      addInput_up ha hsh.wf hsv (ih.2.2 i hi)⟩
  | @addInit lp ρ rows vec rhs bm ies s row _ ha hbm hnc hlen ih =>
    refine ⟨addInitConstraint_repr ha ih.1 hbm hnc hlen, ih.2.1, ?_⟩
    obtain ⟨X, R, hsh, -⟩ := ih.1.shape
    obtain ⟨c, hc, hvl, rfl, rfl⟩ := addInitConstraint_none ha
    have hnd := hc.nodup (by rw [hbm, ih.1.n]) hsh.colsLe fun p hp => (hsh.iePos p hp).1
    have hr := hsh.rowsLe
    intro i hi
    rcases List.mem_cons.1 hi with rfl | hi
    · refine ⟨(⟨.up, rhs, []⟩ : LRow K).withCoefs c, by simp [Sys.numRows], rfl,
        withCoefs_nodup hnd, ?_⟩
      rintro (⟨h1, h2⟩ | ⟨p, hp, h1, h2⟩)
      · simp only at h1 h2; omega
      · simp only at hp h1 h2; have := hsh.iePos p hp; omega
    · obtain ⟨r, hr, h1, h2, h3⟩ := ih.2.2 i hi
      have hil : i < lp.rows.length := by
        by_contra hcc; rw [List.getElem?_eq_none (by omega)] at hr; cases hr
      exact ⟨r, by simp only; rw [List.getElem?_append_left hil]; exact hr, h1, h2, h3⟩
  | tryReplace _ ht hold hbm hnc hlen ih =>
    obtain ⟨h1, h2, -, h3, -⟩ := tryReplace_repr hS ht ih.1 ih.2.1 (ih.2.2 _ hold) hbm hnc hlen
    exact ⟨h1, h2, fun i hi => h3 i (ih.2.2 i hi)⟩
  | trans _ hg hcl hcwf hcn hr hne hd hrwf hmwf hmcwf hmc ih =>
    exact ⟨trans_repr ih.1 hg hcl hcwf hcn hr hne hd hrwf hmwf hmcwf hmc, ih.2.1, by simp⟩

/-- **The represented set is the described set**, for every history. -/
theorem Hist.mem [IsStrictOrderedRing K] {S : Solver K} (hS : S.Honest) {lp : Lp K} {ρ : Rep K}
    {rows : List ℕ} (h : Hist S lp ρ rows) (x : ℕ → K) : lp.Mem x ↔ ρ.Mem x :=
  (h.inv hS).1.mem x

end Hylaa
