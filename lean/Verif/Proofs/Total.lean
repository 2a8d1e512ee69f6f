import Verif.Proofs.SetOk
import Verif.Proofs.Accept2
import Verif.Proofs.Attain

/-! Operations that cannot fail with a complete solver on bounded sets. -/

set_option linter.unusedSectionVars false

namespace Hylaa
open Spec
variable {K : Type} [Field K] [LinearOrder K]

theorem getBasisMatrix_repr {s : Sys K} {ρ : Rep K} (h : s.Repr ρ) :
    ∃ G, getBasisMatrix s = .ok G ∧ G.nr = ρ.n ∧ G.nc = ρ.n ∧
      ∀ i < ρ.n, ∀ j < ρ.n, G.e i j = ρ.B i j := by
  obtain ⟨X, R, h1, hX, -⟩ := h.shape
  have hrow := h1.rowsLe
  have hcol := h1.colsLe
  have hcur := h.curLe
  rw [← h.n]
  refine ⟨_, by unfold getBasisMatrix Sys.getDense; rw [if_pos ⟨by omega, by omega⟩], rfl, rfl,
    fun i hi j hj => ?_⟩
  obtain ⟨r, hr', -, -, hdot⟩ := h1.basis i hi
  simp only [hr', hi, hj, and_self, if_true]
  rw [coefAt_eq_dot, hdot, hX]
  have e1 : (if s.cur + i = s.bmPos.2 + j then (1 : K) else 0) = 0 := if_neg (by omega)
  have e2 : (if s.cur + s.dims + i = s.bmPos.2 + j then (1 : K) else 0) = 0 := if_neg (by omega)
  simp only [e1, e2, ite_self, add_zero, sub_zero]
  rw [Finset.sum_eq_single j]
  · simp
  · intro b _ hb; rw [if_neg (by omega), mul_zero]
  · intro hc; exact absurd (Finset.mem_range.2 hj) hc

variable [IsStrictOrderedRing K]

/-- Creating a state set from a fresh instance succeeds. -/
theorem SS.make_accepts {T : Tols K} (h1 : 0 ≤ T.atol) (h2 : 0 ≤ T.rtol) {m : Mode K} {a : Csr K}
    (ha : m.a = some a) {lp : Lp K} {X : (ℕ → K) → Prop} (hr : lp.Repr (Rep.ofSet a.nrows X))
    (mid : ℕ) (steps : ℕ × ℕ) (ol : List ℕ) (con : Bool) :
    ∃ st, SS.make T m mid lp steps ol con = .ok st := by
  obtain ⟨G, hG, g1, g2, g3⟩ := getBasisMatrix_repr hr
  unfold SS.make
  rw [ha]
  simp only [bind_ok, pure_ok, need_ok]
  refine ⟨_, G, hG, (), ⟨g1, g2⟩, (), ?_, rfl⟩
  simp only [closeToId, List.all_eq_true, List.mem_range, decide_eq_true_eq]
  intro i hi j hj
  rw [g3 i hi j hj]
  simp only [Rep.ofSet, sub_self, abs_zero]
  split
  · linarith
  · linarith

/-- A single step succeeds. -/
theorem SS.Sh.step_accepts {d : Dyn K} {m : Mode K} (hd : d.For m) {a : Csr K} (ha : m.a = some a)
    (had : a.ncols = d.dims) {te : Option (TE K)} (ht : ∀ u, te = some u → u.Inv d) {st : SS K}
    {ρ : Rep K} (h : st.Sh d ρ) (hie : d.nmat ≠ none → st.lp.ie.isSome = true) :
    ∃ te' st', st.step d m te none = .ok (te', st') ∧ st'.lp.ie = st.lp.ie := by
  have hdims : st.lp.dims = d.dims := by rw [h.repr.n, h.n]
  obtain ⟨t1, hg, ht1⟩ := getBasis_spec hd.laws ht (st.stepIn + 1)
  obtain ⟨s1, hs1⟩ := setBasisMatrix_accepts st.lp.toSys (m := (d.at (st.stepIn + 1)).1)
    (by rw [hdims]; exact (Dyn.at_shape hd.laws _).1) (by rw [hdims]; exact (Dyn.at_shape hd.laws _).2)
  obtain ⟨X, R, hsh, -⟩ := h.repr.shape
  have hv1 := (setBasisMatrix_shape hs1 hsh).2.1
  have hq : ∃ q, st.stepInputs d m t1 s1 (d.at (st.stepIn + 1)).2 (st.stepIn + 1) = .ok q ∧
      q.2.1.ie = st.lp.ie := by
    cases hN : d.nmat with
    | none =>
      have hnone : (d.at (st.stepIn + 1)).2 = none := by
        cases st.stepIn with
        | zero => exact hN
        | succ k => simp [Dyn.at, hN]
      rw [hnone]
      exact ⟨_, rfl, hv1.ie⟩
    | some N =>
      obtain ⟨P, hP, hP1, hP2, -⟩ := Dyn.at_ie_succ hd.laws hN st.stepIn
      obtain ⟨inp, hi, hic⟩ := hd.inp N hN
      obtain ⟨s2, hs2⟩ := addInputEffects_accepts (s := s1) (n := P) (mode := m) (inp := inp) (a := a)
        (by rw [hv1.ie]; exact hie (by simp [hN])) hi ha (by rw [hP2, hic])
        (by rw [hv1.dims, hdims, hP1]) (by rw [hv1.dims, hdims, had])
      have hv2 := (addInputEffects_shape hs2 hi (setBasisMatrix_shape hs1 hsh).1).2.1
      rw [hP]
      refine ⟨(t1, s2, some (d.iesTo st.stepIn ++ [P])), ?_, by rw [← hv1.ie]; exact hv2.ie⟩
      simp only [SS.stepInputs, bind_ok, pure_ok, h.ies, hN, Option.map_some, Nat.sub_self,
        List.range'_zero, ieLoop]
      exact ⟨_, rfl, _, rfl, s2, by rw [h.lgg]; exact hs2, rfl⟩
  obtain ⟨q, hq, hqi⟩ := hq
  refine ⟨some q.1, { st with
    lp := { st.lp with toSys := q.2.1 },
    basis := some (d.at (st.stepIn + 1)).1, ies := q.2.2, stepIn := st.stepIn + 1,
    steps := (st.steps.1 + (st.stepIn + 1 - st.stepIn), st.steps.2 + (st.stepIn + 1 - st.stepIn)) },
    ?_, hqi⟩
  unfold SS.step
  simp only [Option.getD_none]
  rw [if_neg (by omega), if_neg (by omega)]
  simp only [bind_ok, pure_ok]
  exact ⟨_, hg, s1, hs1, q, hq, rfl⟩

/-- The objective is bounded on the solutions. -/
def Lp.ObjBdd (lp : Lp K) : Prop := ∃ B, ∀ v, lp.Sat v → B ≤ lp.objVal v

theorem minimize_accepts_bdd {S : Solver K} (hS : S.Complete) {lp : Lp K} (hw : lp.WF)
    (hb : lp.ObjBdd) {columns : Option (List ℕ)}
    (hc : ∀ cs, columns = some cs → ∀ c ∈ cs, c < lp.numCols) :
    ∃ lp' r, minimize S lp none columns false = .ok (lp', r) ∧ lp'.toSys = lp.toSys ∧
      lp'.obj = lp.obj := by
  by_cases hf : ∃ v, lp.Sat v
  · obtain ⟨B, hB⟩ := hb
    have h := hS.opt_if lp false (Lp.attain hw hf hB)
    refine ⟨{ lp with ws := (S.run lp false).ws },
      some (colVals { lp with ws := (S.run lp false).ws } columns (S.run lp false).prim), ?_, rfl, rfl⟩
    unfold minimize minimizeOnce
    simp only [setDirOpt, solveRetry_ok h.1]
    unfold processSimplex
    simp only [h.1, h.2]
    rw [copyColumns_of_lt (by exact hc)]
  · have h := hS.nofeas_if lp false (by rintro v hv; exact hf ⟨v, hv⟩)
    refine ⟨{ lp with ws := (S.run lp false).ws }, none, ?_, rfl, rfl⟩
    unfold minimize minimizeOnce
    simp only [setDirOpt, solveRetry_ok h.1]
    unfold processSimplex
    simp only [h.1, h.2]
    simp

theorem isFeasible_accepts_bdd {S : Solver K} (hS : S.Complete) {lp : Lp K} (hw : lp.WF)
    (hb : lp.ObjBdd) : ∃ lp' b, isFeasible S lp = .ok (lp', b) ∧ lp'.toSys = lp.toSys ∧
      lp'.obj = lp.obj := by
  obtain ⟨lp', r, h, h1, h2⟩ := minimize_accepts_bdd hS hw hb (columns := some []) (by simp)
  refine ⟨lp', r.isSome, ?_, h1, h2⟩
  unfold isFeasible
  rw [h]

theorem setObjCsrLoop_accepts_lp (r : SRow K) (off : ℕ) : ∀ (lp : Lp K), (∀ p ∈ r, off + p.1 < lp.numCols) →
    ∃ lp', lp.setObjCsrLoop off r = .ok lp' := by
  induction r with
  | nil => intro lp _; exact ⟨lp, rfl⟩
  | cons p r ih =>
    intro lp h
    unfold Lp.setObjCsrLoop
    rw [if_pos (show off + p.1 + 1 ≤ lp.names.length from h p (by simp))]
    exact ih _ fun q hq => h q (by simp [hq])

theorem setMinDirCsr_accepts_lp {lp : Lp K} {nc : ℕ} {r : SRow K} (hn : nc ≤ lp.dims)
    (hr : ∀ p ∈ r, p.1 < nc) (hc : lp.cur + lp.dims ≤ lp.numCols) :
    ∃ lp', lp.setMinDirCsr nc r none = .ok lp' := by
  unfold Lp.setMinDirCsr
  simp only
  rw [if_pos hn]
  exact setObjCsrLoop_accepts_lp r lp.cur _ fun p hp => by
    have := hr p hp
    have he : lp.clearObj.numCols = lp.numCols := by unfold Sys.numCols; rw [clearObj_toSys]
    omega

theorem checkIntersection_accepts_bdd {S : Solver K} (hS : S.Complete) {lp : Lp K} (ho : lp.ObjInv)
    (hw : lp.WF) {lc : LinCon K} (tol : K) (hnd : (lc.row.map fun p => p.1).Nodup)
    (hwf : ∀ p ∈ lc.row, p.1 < lc.ncols) (hn : lc.ncols ≤ lp.dims)
    (hc : lp.cur + lp.dims ≤ lp.numCols) {B : K} (hB : ∀ x, lp.Mem x → B ≤ dot lc.row x) :
    ∃ lp' ans, checkIntersection S lp lc tol = .ok (lp', ans) ∧ lp'.ObjBdd := by
  obtain ⟨lp1, h1⟩ := setMinDirCsr_accepts_lp hn hwf hc
  obtain ⟨ho1, hs1, -, hov⟩ := setMinDirCsr_spec h1 ho
  have hov := (hov hnd).2
  simp only [Option.getD_none] at hov
  have hb : ∀ v, lp1.Sat v → B ≤ lp1.objVal v := by
    intro v hv
    rw [hov]
    rw [hs1] at hv
    have := hB (fun i => v (lp.cur + i)) ⟨v, hv, fun _ _ => rfl⟩
    exact this
  obtain ⟨lp2, r, h2, h3, h4⟩ := minimize_accepts_bdd hS (lp := lp1) (by rw [hs1]; exact hw) ⟨B, hb⟩
    (columns := some (lc.row.map fun p => lp1.cur + p.1)) (by
      intro cs hcs c hcc
      cases hcs
      simp only [List.mem_map] at hcc
      obtain ⟨p, hp, rfl⟩ := hcc
      rw [hs1]
      have := hwf p hp; omega)
  refine ⟨lp2, r.map fun res => decide (dotList lc.row res + tol ≤ lc.rhs), ?_, B, fun v hv => ?_⟩
  · simp only [checkIntersection, bind_ok, pure_ok]
    exact ⟨lp1, h1, _, h2, rfl⟩
  · rw [h3] at hv
    have := hb v hv
    unfold Lp.objVal at *
    have hnc : lp2.numCols = lp1.numCols := by rw [h3]
    rw [h4, hnc]; exact this

/-- Intersecting with an invariant of one condition, the first time. -/
theorem SS.Sh.inv1_accepts {S : Solver K} (hS : S.Complete) {T : Tols K} {m : Mode K} {d : Dyn K}
    (hd : d.For m) {lc : LinCon K} (hm : m.inv = [lc]) {st : SS K} {ρ : Rep K} (h : st.Sh d ρ)
    (hrow : st.invRows = [none]) {B : K} (hB : ∀ x, st.lp.Mem x → dot lc.row x ≤ B) :
    ∃ st' f ops, SS.intersectInvariant S T m st = .ok (st', f, ops) ∧ st'.lp.ie = st.lp.ie ∧
      (st' = { st with lp := st'.lp, invRows := [none] } ∨
        ∃ r, st' = { st with lp := st'.lp, invRows := [some r] }) ∧
      ((∀ x, st.lp.Mem x → dot lc.row x < lc.rhs + T.inter) → st'.invRows = [none]) := by
  have hlc : lc ∈ m.inv := by simp [hm]
  have hdims : st.lp.dims = d.dims := by rw [h.repr.n, h.n]
  have hnd : (lc.negate.row.map fun p => p.1).Nodup := by
    have := hd.wf.nodup lc hlc; simpa [LinCon.negate, negRow, Function.comp_def] using this
  have hlt : ∀ p ∈ lc.negate.row, p.1 < lc.negate.ncols := by
    intro p hp
    simp only [LinCon.negate, negRow, List.mem_map] at hp
    obtain ⟨q, hq, rfl⟩ := hp
    simp only [LinCon.negate]
    rw [hd.wf.ncols lc hlc]; exact hd.wf.lt lc hlc q hq
  obtain ⟨lp1, ans, h1, hb1⟩ := checkIntersection_accepts_bdd hS h.obj h.repr.wf (lc := lc.negate) T.inter
    hnd hlt (by rw [hdims]; exact (hd.wf.ncols lc hlc).le) h.repr.curLe (B := -B) (by
      intro x hx
      simp only [LinCon.negate, dot_negRow]
      have := hB x hx
      linarith)
  obtain ⟨c1, c2, -, -, c5, -⟩ := checkIntersection_spec hS.toHonest h.obj hnd hlt h1
  have hs1 := h.withLp c1 c2
  have hviol : ans = some true → ¬ ∀ x, st.lp.Mem x → dot lc.row x < lc.rhs + T.inter := by
    intro ht hall
    obtain ⟨x, hx, hx'⟩ := c5.1 ht
    simp only [LinCon.negate, dot_negRow] at hx'
    have := hall x hx
    linarith
  unfold SS.intersectInvariant
  rw [hm]
  simp only [invLoop]
  by_cases hans : ans = some true
  · obtain ⟨s2, row, ha⟩ := addInitConstraint_accepts (s := lp1.toSys) hs1.repr (vec := lc.vec)
      (rhs := lc.rhs) (bm := (d.at st.stepIn).1) (ies := st.ies)
      (by rw [h.n]; simp [LinCon.vec, hd.wf.ncols lc hlc])
      (by rw [h.n]; exact (Dyn.at_shape hd.laws _).1)
      (by
        have hies : st.ies.getD [] = d.iesTo st.stepIn := by
          rw [h.ies]
          cases hN : d.nmat with
          | none => simp [Dyn.iesTo_none hN]
          | some N => simp
        rw [hies]
        rcases h.m with q | q
        · rw [← h.Ns, q]; simp
        · rw [q]; exact Dyn.iesTo_nc hd.laws _)
      (by
        rw [h.ies, h.Ns]
        cases hN : d.nmat with
        | none => simp
        | some N => simp)
    have hadd : ({ st with lp := lp1 } : SS K).addInv S T 0 lc = .ok
        ({ st with lp := { lp1 with toSys := s2 }, invRows := [some row] }, false) := by
      simp only [SS.addInv, hrow, bind_ok, h.basis]
      exact ⟨none, rfl, _, rfl, by simp only [bind_ok, pure_ok]; exact ⟨_, ha, rfl⟩⟩
    have hw := addInitConstraint_repr ha hs1.repr (by rw [h.n]; exact (Dyn.at_shape hd.laws _).1)
      (by
        have hies : st.ies.getD [] = d.iesTo st.stepIn := by
          rw [h.ies]
          cases hN : d.nmat with
          | none => simp [Dyn.iesTo_none hN]
          | some N => simp
        rw [hies]
        rcases h.m with q | q
        · rw [← h.Ns, q]; simp
        · rw [q]; exact Dyn.iesTo_nc hd.laws _)
      (by
        rw [h.ies, h.Ns]
        cases hN : d.nmat with
        | none => simp
        | some N => simp)
    obtain ⟨X, R, hsh, -⟩ := hs1.repr.shape
    obtain ⟨c, -, -, rfl, rfl⟩ := addInitConstraint_none ha
    obtain ⟨lp3, f, h3, h4, h5⟩ := isFeasible_accepts_bdd hS (lp := { lp1 with toSys := _ }) hw.wf (by
      obtain ⟨B1, hB1⟩ := hb1
      refine ⟨B1, fun v hv => ?_⟩
      exact hB1 v fun r hr => hv r (by simp [hr]))
    have hie : lp3.ie = st.lp.ie := by rw [h4]; simp only; rw [c1]
    cases f with
    | true =>
      refine ⟨{ st with lp := lp3, invRows := [some lp1.numRows] }, true, [(0, false)], ?_, hie, .inr ⟨_, rfl⟩, fun h => absurd h (hviol hans)⟩
      simp only [bind_ok]
      refine ⟨_, h1, ?_⟩
      rw [if_pos (by rw [hans])]
      simp only [bind_ok]
      refine ⟨_, hadd, _, h3, ?_⟩
      simp
    | false =>
      refine ⟨{ st with lp := lp3, invRows := [some lp1.numRows] }, false, [(0, false)], ?_, hie, .inr ⟨_, rfl⟩, fun h => absurd h (hviol hans)⟩
      simp only [bind_ok]
      refine ⟨_, h1, ?_⟩
      rw [if_pos (by rw [hans])]
      simp only [bind_ok]
      refine ⟨_, hadd, _, h3, ?_⟩
      rfl
  · refine ⟨{ st with lp := lp1 }, true, [], ?_, by rw [← c1], .inl (by rw [← hrow]), fun _ => hrow⟩
    simp only [bind_ok]
    refine ⟨_, h1, ?_⟩
    rw [if_neg hans]

end Hylaa
