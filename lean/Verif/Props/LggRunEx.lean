import Verif.Props.LggExact
import Verif.Props.LggSafe

/-!
# C57, C53: a run with the LGG model

`x' = -x` from `[0, 1]`, one step of length 1, error mode for `x ≥ 10`, `process_urgent_guards`: the analysis
is accepted, finishes and reports "System is safe".
-/

set_option linter.unusedSectionVars false

namespace Hylaa
open Spec

section
variable {K : Type} [Field K] [LinearOrder K] [IsStrictOrderedRing K]

/-- A guard of one row that no point satisfies. -/
theorem guard_none {S : Solver K} (hS : S.Complete) {lp : Lp K} (hw : lp.WF) (ho : lp.ObjInv)
    (hcur : lp.cur + lp.dims ≤ lp.numCols) {nc : ℕ} {r : SRow K} {c : K} (hn : nc ≤ lp.dims)
    (hnd : (r.map fun p => p.1).Nodup) (hwf : ∀ p ∈ r, p.1 < nc) (hgt : ∀ x, lp.Mem x → c < dot r x) :
    ∃ lp', guardIntersection S lp (⟨nc, [r]⟩, [c]) = .ok (lp', none) ∧ lp'.toSys = lp.toSys ∧ lp'.ObjInv := by
  obtain ⟨lp1, h1⟩ := setMinDirCsr_accepts_lp hn hwf hcur
  obtain ⟨ho1, hs1, -, hov⟩ := setMinDirCsr_spec h1 ho
  have hov := (hov hnd).2
  simp only [Option.getD_none] at hov
  have hb : ∀ v, lp1.Sat v → c ≤ lp1.objVal v := by
    intro v hv
    rw [hov]
    rw [hs1] at hv
    exact (hgt (fun i => v (lp.cur + i)) ⟨v, hv, fun _ _ => rfl⟩).le
  obtain ⟨lp2, res, h2, h3, h4⟩ := minimize_accepts_bdd hS (lp := lp1) (by rw [hs1]; exact hw) ⟨c, hb⟩
    (columns := some (r.map fun p => lp1.cur + p.1)) (by
      intro cs hcs k hcc
      cases hcs
      simp only [List.mem_map] at hcc
      obtain ⟨p, hp, rfl⟩ := hcc
      rw [hs1]
      have := hwf p hp; omega)
  obtain ⟨g1, g2, -, g4, g5⟩ := rowMin_spec hS.toHonest ho hnd hwf h1 h2
  refine ⟨lp2, ?_, g1, g2⟩
  have hl : guardRowsLoop S lp nc [(r, c)] = .ok (lp2, false) := by
    simp only [guardRowsLoop, h1, bind, Except.bind, h2]
    cases res with
    | none => rfl
    | some l =>
      obtain ⟨⟨x, hx, hl⟩, -⟩ := g5 l rfl
      simp only
      rw [if_pos (by rw [hl]; exact hgt x hx)]
  simp [guardIntersection, need, Csr.nrows, hl, bind, Except.bind, pure, Except.pure]

end

/-- `x' = -x` -/
noncomputable def decayA : Csr ℝ := ⟨1, [[(0, -1)]]⟩

noncomputable def decayMode : Mode ℝ := { name := "d", id := 0, a := some decayA }

noncomputable def decayHA : HA ℝ :=
  { modes := [decayMode, { name := "bad", id := 1 }]
    out := [[0], []]
    trans := [{ src := 0, dst := 1, index := 0, guard := some (⟨1, [[(0, -1)]]⟩, [-10]) }] }

noncomputable def decayEnv : Env ℝ :=
  { S := idealSolver ℝ
    T := { exT ℝ with inter := 1 / 10 ^ 6 }
    set := { numSteps := 1, urgent := true, strat := none }
    ha := decayHA
    dyn := fun _ => dynOf decayA none 1
    epsTt := 1 / 1000
    dirs := fun _ _ _ _ _ => .ok []
    approx := .lgg
    lgg := ⟨Real.exp, 1, 1 / 10 ^ 7, 10 ^ 5⟩ }

/-- The rounds of the main loop. -/
theorem decay_rounds {lp lp1 lp2 lp3 : Lp ℝ} {st st1 st2 : SS ℝ} {te1 te2 : Option (TE ℝ)}
    (h1 : fromBox (idealSolver ℝ) [(0, 1)] decayMode = .ok lp)
    (h2 : SS.make decayEnv.T decayMode 0 lp (0, 0) [] true = .ok st)
    (h3 : isFeasible (idealSolver ℝ) st.lp = .ok (lp1, true))
    (hm0 : st.mode = 0)
    (h4 : SS.applyApprox (idealSolver ℝ) decayEnv.T decayEnv.lgg (dynOf decayA none 1) decayMode .lgg none
      { st with lp := lp1, invRows := [], aggstr := some "full" } = .ok (te1, st1))
    (hm1 : st1.mode = 0) (hs1 : st1.steps = (0, 0))
    (h5 : guardIntersection (idealSolver ℝ) st1.lp (⟨1, [[(0, -1)]]⟩, [-10]) = .ok (lp2, none))
    (h6 : SS.step (dynOf decayA none 1) decayMode te1 { st1 with lp := lp2 } none = .ok (te2, st2))
    (hm2 : st2.mode = 0) (hs2 : st2.steps = (1, 1))
    (h7 : guardIntersection (idealSolver ℝ) st2.lp (⟨1, [[(0, -1)]]⟩, [-10]) = .ok (lp3, none)) :
    ∃ σ, analyse decayEnv [(0, [(0, 1)])] 3 = .ok σ ∧ σ.isFinished decayEnv = true ∧ σ.verdict = .safe := by
  have hma : decayMode.isError = false := by simp [decayMode, Mode.isError]
  have hinv : decayMode.inv = [] := rfl
  have hzero : decayA.noEntries = false := by simp [decayA, Csr.noEntries]
  have ha : decayMode.a = some decayA := rfl
  have e1 : decayHA.modes[0]? = some decayMode := rfl
  have e2 : decayHA.out[0]? = some [0] := rfl
  have e3 : decayHA.trans[0]? = some { src := 0, dst := 1, index := 0, guard := some (⟨1, [[(0, -1)]]⟩, [-10]) } := rfl
  have hb : boxStates decayEnv [(0, [(0, 1)])] = .ok [st] := by
    simp [boxStates, decayEnv, h1, needSome, bind, Except.bind, pure, Except.pure, e1] at h2 ⊢
    rw [h2]
  obtain ⟨σ0, hσ0, g0⟩ : ∃ σ0, setup decayEnv [st] = .ok σ0 ∧ σ0 = { ({} : Core ℝ) with
      ops := [{ step := 0, parent := none, child := none, trans := none, post := 0 }]
      states := [{ st with lp := lp1, invRows := [] }]
      waiting := [0] } := by
    refine ⟨_, ?_, rfl⟩
    simp [setup, setupStates, decayEnv, needSome, bind, Except.bind, pure, Except.pure, e1, hm0, h3, assert, need,
      SS.intersectInvariant, hinv, invLoop]
  have hp : popWaiting decayEnv σ0 = .ok { σ0 with
      ops := [{ step := 0, parent := none, child := some 0, trans := none, post := 0 }]
      states := [{ st with lp := lp1, invRows := [], aggstr := some "full" }]
      waiting := []
      nodes := [{ state := 0, parents := [0], agg := none }]
      roots := [0]
      cur := some 0 } := by
    subst g0
    simp [popWaiting, waitItem, stratPop, restrictPop, makeNode, nodeState, decayEnv, needSome, bind, Except.bind, pure,
      Except.pure, e1, hm0, hma, assert, Core.setState, List.mapM_cons, List.mapM_nil]
  have r1 : doStep decayEnv σ0 = .ok { σ0 with
      ops := [{ step := 0, parent := none, child := some 0, trans := none, post := 0 }]
      states := [{ st1 with lp := lp2 }]
      waiting := []
      nodes := [{ state := 0, parents := [0], agg := none }]
      roots := [0]
      cur := some 0
      te := Function.update σ0.te 0 te1 } := by
    have hw : σ0.waiting = [0] := by rw [g0]
    have hc : σ0.curState = none := by rw [g0]; rfl
    have hr : σ0.doingReplay = false := by rw [g0]; rfl
    have hf : σ0.isFinished decayEnv = false := by rw [g0]; simp [Core.isFinished, decayEnv]
    have hd : getDeaggNode decayEnv σ0 = .ok none := by simp [getDeaggNode, decayEnv]
    have ht : σ0.te 0 = none := by rw [g0]
    simp only [doStep, hf, hc, hr, hd, stepPop, hp, Bool.false_eq_true, if_false, Option.isSome_none, bind, Except.bind]
    simp [decayEnv, Core.curState, Node.left, needSome, e1, hm0, hma, intersectCur, SS.intersectInvariant, hinv, invLoop,
      Core.setState, approxCur, ht, bind, Except.bind, pure, Except.pure] at h4 ⊢
    rw [h4]
    simp [checkGuards, Core.curState, Node.left, needSome, e2, e3, hm1, guardLoop, h5, bind, Except.bind, pure, Except.pure, Core.setState]
  let σ1 : Core ℝ := { σ0 with
      ops := [{ step := 0, parent := none, child := some 0, trans := none, post := 0 }]
      states := [{ st1 with lp := lp2 }]
      waiting := []
      nodes := [{ state := 0, parents := [0], agg := none }]
      roots := [0]
      cur := some 0
      te := Function.update σ0.te 0 te1 }
  let σ2 : Core ℝ := { σ1 with
      states := [{ st2 with lp := lp3 }]
      te := Function.update σ1.te 0 te2 }
  have r2 : doStep decayEnv σ1 = .ok σ2 := by
    have hc : σ1.curState = some (0, 0) := by simp [σ1, Core.curState, Node.left]
    have hf : σ1.isFinished decayEnv = false := by simp [Core.isFinished, hc]; simp [σ1, g0]
    have hi : intersectCur decayEnv σ1 = .ok (σ1, true) := by
      simp [σ1, decayEnv, Core.curState, Node.left, needSome, e1, hm1, intersectCur, SS.intersectInvariant, hinv,
        invLoop, Core.setState, bind, Except.bind, pure, Except.pure]
    have hss : stepState decayEnv σ1 0 none = .ok { σ1 with states := [st2], te := Function.update σ1.te 0 te2 } := by
      simp [σ1, decayEnv, needSome, e1, hm1, Core.setState, stepState, bind, Except.bind, pure, Except.pure] at h6 ⊢
      rw [h6]
    simp only [doStep, hf, hc, hi, hss, Bool.false_eq_true, if_false, Option.isSome_some, if_true, stepPost, needSome, bind, Except.bind]
    simp [σ1, σ2, decayEnv, Core.curState, Node.left, needSome, e1, hm1, hs1, intersectCur, SS.intersectInvariant, hinv,
      invLoop, Core.setState, stepState, bind, Except.bind, pure, Except.pure, g0, h6]
    simp [checkGuards, Core.curState, Node.left, needSome, e2, e3, hm2, guardLoop, h7, bind, Except.bind, pure, Except.pure,
      Core.setState, ha, hzero]
  have r3 : ∃ σ3, doStep decayEnv σ2 = .ok σ3 ∧ σ3.isFinished decayEnv = true ∧ σ3.verdict = .safe := by
    have hc : σ2.curState = some (0, 0) := by simp [σ1, σ2, Core.curState, Node.left]
    have hf : σ2.isFinished decayEnv = false := by simp [Core.isFinished, hc]; simp [σ2, σ1, g0]
    refine ⟨{ σ2.pushOp 0 (.left st2.stepIn true) with cur := none }, ?_, ?_, ?_⟩
    · simp only [doStep, hf, hc, Bool.false_eq_true, if_false, Option.isSome_some, if_true, stepPost, needSome, bind, Except.bind]
      have hg : σ2.states[0]? = some { st2 with lp := lp3 } := rfl
      have hn : decayEnv.set.numSteps = 1 := rfl
      simp [hg, hn, hs2, Core.leftInvariant, hc, needSome, bind, Except.bind, pure, Except.pure]
    · simp [Core.isFinished, Core.curState, Core.pushOp, σ2, σ1, g0, Core.doingReplay]
    · simp [Core.verdict, Core.pushOp, σ2, σ1, g0]
  obtain ⟨σ3, r3, k1, k2⟩ := r3
  exact ⟨σ3, by simp [analyse, hb, hσ0, runSteps, r1, r2, r3, bind, Except.bind, σ1], k1, k2⟩


theorem decayMode_real : ModeReal decayMode decayA where
  dyns := rfl
  wf := by
    intro r hr p hp
    simp [decayA] at hr
    subst hr
    simp at hp
    subst hp
    simp [decayA]
  sq := by simp [decayA, Csr.nrows]
  pos := by simp [decayA, Csr.nrows]
  inp := by simp [decayMode]
  inv := ⟨by simp [decayMode], by simp [decayMode], by simp [decayMode]⟩

theorem decayA_norm : aNorm decayA = 1 := by
  simp [aNorm, decayA, Csr.nrows, coefAt, Csr.row]

/-- The matrix of one step is the number `e⁻¹`. -/
theorem decay_exp (x : ℕ → ℝ) : mulV 1 ((dynOf decayA none 1).ex 1).e x 0 = Real.exp (-1) * x 0 := by
  have h1 : ((1 : ℕ) : ℝ) • (1 : ℝ) • aMat decayA = Matrix.diagonal fun _ => (-1 : ℝ) := by
    ext i j
    have : decayA.nrows = 1 := rfl
    have hi : (i : ℕ) = 0 := by have := i.2; omega
    have hj : (j : ℕ) = 0 := by have := j.2; omega
    have hij : i = j := Fin.ext (by rw [hi, hj])
    subst hij
    rw [Matrix.diagonal_apply_eq]
    simp only [Matrix.smul_apply, aMat, hi]
    simp [coefAt, Csr.row, decayA]
  have h2 : ((dynOf decayA none 1).ex 1).e 0 0 = Real.exp (-1) := by
    simp only [dynOf, ofSquare]
    rw [dif_pos ⟨by simp [decayA, Csr.nrows], by simp [decayA, Csr.nrows]⟩, h1, Matrix.exp_diagonal]
    simp [Pi.exp_def, Real.exp_eq_exp_ℝ]
  simp [mulV, h2]

theorem decay_dims : (dynOf decayA none 1).dims = 1 := rfl

/-- A state of the run whose set is inside `[-2, 2]` does not touch the guard. -/
theorem decay_guard {lp : Lp ℝ} {ρ : Rep ℝ} (hr : lp.Repr ρ) (hn : ρ.n = 1) (ho : lp.ObjInv)
    (hle : ∀ x, lp.Mem x → |x 0| ≤ 2) : ∃ lp', guardIntersection (idealSolver ℝ) lp (⟨1, [[(0, -1)]]⟩, [-10]) = .ok (lp', none) ∧
      lp'.toSys = lp.toSys ∧ lp'.ObjInv := by
  have hd : lp.dims = 1 := by rw [hr.n, hn]
  refine guard_none idealSolver_complete ?_ ho hr.curLe (by omega) (by simp) (by simp) ?_
  · obtain ⟨X, R, hsh, -⟩ := hr.shape
    exact hsh.wf
  · intro x hx
    have := abs_le.1 (hle x hx)
    simp [dot]
    linarith

/-- The analysis finishes with "System is safe". -/
theorem decay_safe : ∃ σ, analyse decayEnv [(0, [(0, 1)])] 3 = .ok σ ∧ σ.isFinished decayEnv = true ∧ σ.verdict = .safe := by
  have hC := idealSolver_complete (K := ℝ)
  set d := dynOf decayA none 1 with hd
  have hfor : d.For decayMode := decayMode_real.dyn 1
  obtain ⟨lp, hlp⟩ := C01_from_box_accepts hC (box := [((0 : ℝ), 1)]) decayMode (by norm_num)
  have hmem : ∀ x, lp.Mem x ↔ 0 ≤ x 0 ∧ x 0 ≤ 1 := by
    intro x
    rw [C01_from_box hlp]
    constructor
    · intro h
      have := h 0 (by simp)
      simpa using this
    · intro h i hi
      have : i < 1 := hi
      interval_cases i; simpa using h
  have hfb := hlp
  simp only [fromBox, bind_ok, assert_ok] at hlp
  obtain ⟨_, -, hlp⟩ := hlp
  have hH := Hist.construct hlp (by simp) (boxCsr_wf _)
  have hHi := hH.inv hC.toHonest
  obtain ⟨st, hm⟩ := SS.make_accepts (T := decayEnv.T) (by simp [decayEnv, exT]) (by simp [decayEnv, exT]) decayMode_real.dyns hHi.1 0 (0, 0) [] true
  obtain ⟨hst, hok⟩ := SS.Ok.make (ε := 0) hfor decayMode_real.dyns hHi.1 hHi.2.1 rfl hm
  obtain ⟨⟨ρ, hsh, -⟩, -⟩ := hok
  have hslp : st.lp = lp := by rw [hst]
  have hobj : ∀ j, lp.obj j = 0 := by
    obtain ⟨-, -, -, -, -, -, -, -, -, -, -, ho, -⟩ := fromConstraints_ok hlp (by simp)
    intro j; rw [ho]
  obtain ⟨lp1, b, hf, hb⟩ := isFeasible_complete hC hobj
  have hne : lp.Mem fun _ => 0 := (hmem _).2 (by norm_num)
  have hb : b = true := hb.2 (by obtain ⟨v, hv, -⟩ := hne; exact ⟨v, hv⟩)
  subst hb
  obtain ⟨f1, f2, -⟩ := isFeasible_spec hC.toHonest hf hHi.2.1
  have hmem1 : ∀ x, lp1.Mem x ↔ 0 ≤ x 0 ∧ x 0 ≤ 1 := by intro x; rw [← hmem x, f1]
  set st0 : SS ℝ := { st with lp := lp1, invRows := [], aggstr := some "full" } with hst0
  have hsh0 : st0.Sh d ρ :=
    ⟨by simp only [hst0]; rw [f1, ← hslp]; exact hsh.repr, f2, by simp [hst0], hsh.lgg, hsh.basis, hsh.n, hsh.B, hsh.Ns, hsh.ies, hsh.m⟩
  have hs00 : st0.stepIn = 0 := by simp [hst0, hst]
  have hlo : st0.lp.NoLo := by
    have := fromConstraints_noLo' hlp (by simp) (by simp)
    simp only [hst0]
    rw [Sys.noLo_iff] at *
    rwa [f1]
  have hcol : ∀ v, st0.lp.Sat v → ∀ i < st0.lp.dims, v i = v (st0.lp.cur + i) := by
    simp only [hst0, f1]
    exact fresh_cols hlp (by simp) (boxCsr_wf _)
  obtain ⟨⟨te1, st1⟩, hap⟩ := approxLgg_accepts (te := none) hC decayEnv.T (c := decayEnv.lgg) hfor (by simp [decayMode])
    (by simp [decayMode]) decayMode_real.dyns
    (by
      unfold LggCfg.factor
      have : decayEnv.lgg.exp = Real.exp := rfl
      rw [this]
      linarith [Real.add_one_le_exp (decayEnv.lgg.tau * aNorm decayA)])
    (by simp [decayMode]) ⟨fun _ => 0, by simp [Admissible, decayMode]⟩ ⟨0, fun u _ i _ => by simp [inputAt, decayMode]⟩
    (fun r _ h => by simp [decayMode] at h) (by simp) hsh0 hs00 hlo ⟨_, (hmem1 _).2 ((hmem _).1 hne)⟩
    ⟨1, fun x hx i hi => by
      have hi : i < 1 := hi
      obtain ⟨e0, e1⟩ := (hmem1 x).1 hx
      interval_cases i; exact abs_le.2 ⟨by linarith, e1⟩⟩
  obtain ⟨rx, rv, hrx, hrv, hhull⟩ := approxLgg_exact hC.toHonest (d := d) (by simp [hd, decay_dims]) (by simp [decayMode])
    decayMode_real.dyns (by simp) hsh0 hs00 hlo hcol hap
  obtain ⟨_, _, lp', te0, r1, r2, r3, r4, r5, r6, ⟨X, r7⟩, r8, r9, r10, r11⟩ :=
    approxLgg_spec hC.toHonest (d := d) (by simp [hd, decay_dims]) (by simp [decayMode]) decayMode_real.dyns (by simp) hsh0 hs00 hlo hcol hap
  obtain ⟨b1, b2⟩ := lggBetaPart_lp r10
  rw [if_neg (by simp [decayMode])] at b2
  obtain ⟨rfl, rfl⟩ := b2
  -- the set is inside `[-2, 2]`
  have hexp1 : |Real.exp (-1)| ≤ 1 := by
    rw [abs_of_pos (Real.exp_pos _)]; exact Real.exp_le_one_iff.2 (by norm_num)
  have hb2 : ∀ x, lp'.Mem x → |x 0| ≤ 2 := by
    intro x hx
    have hin : (fun i : Fin 1 => x i) ∈ Pts 1 lp'.Mem := ⟨x, hx, fun _ => rfl⟩
    change Pts 1 lp'.Mem = _ at hhull
    rw [hhull] at hin
    have hrx1 : rx ≤ 1 := by
      obtain ⟨x, i, hx, hi, rfl⟩ := hrx.1
      have hi : i < 1 := hi
      obtain ⟨e0, e1⟩ := (hmem1 x).1 hx
      interval_cases i; exact abs_le.2 ⟨by linarith, e1⟩
    have hrv0 : rv = 0 := by
      obtain ⟨x, i, ⟨u, -, hx⟩, hi, rfl⟩ := hrv.1
      rw [hx i hi]; simp [inputAt, decayMode]
    have hal : decayEnv.lgg.alpha decayA rx rv ≤ 1 := by
      have h3 := Real.exp_one_lt_three
      have h4 : (2 : ℝ) ≤ Real.exp 1 := by linarith [Real.add_one_le_exp (1 : ℝ)]
      have h5 : decayEnv.lgg.alpha decayA rx rv = (Real.exp 1 - 2) * rx := by
        simp only [LggCfg.alpha, LggCfg.factor, decayA_norm, hrv0]
        norm_num [decayEnv]
        left; ring
      rw [h5]
      nlinarith
    have hsub : convexHull ℝ (Pts 1 st0.lp.Mem ∪ Pts 1 (LggSecond d decayMode decayEnv.lgg.tau (decayEnv.lgg.alpha decayA rx rv) st0.lp.Mem)) ⊆
        {v : Fin 1 → ℝ | |v 0| ≤ 2} := by
      refine convexHull_min ?_ ?_
      · rintro v (⟨x, hx, hv⟩ | ⟨z, ⟨x, u, e, hx, -, he, hz⟩, hv⟩)
        · obtain ⟨e0, e1⟩ := (hmem1 x).1 hx
          show |v 0| ≤ 2
          rw [hv 0]
          exact abs_le.2 ⟨by simp; linarith, by simp; linarith⟩
        · obtain ⟨e0, e1⟩ := (hmem1 x).1 hx
          show |v 0| ≤ 2
          rw [hv 0]
          have h1 := hz 0 (by simp [hd, decay_dims])
          have h2 := (he 0 (by simp [hd, decay_dims])).trans hal
          rw [show d.dims = 1 from rfl, hd, decay_exp] at h1
          simp only [inputAt, decayMode, mul_zero, add_zero] at h1
          simp only [Fin.val_zero, h1]
          have h3 : |Real.exp (-1) * x 0| ≤ 1 := by
            rw [abs_mul, abs_of_nonneg e0]
            nlinarith [abs_nonneg (Real.exp (-1))]
          exact (abs_add_le _ _).trans (by linarith)
      · rw [convex_iff_forall_pos]
        intro p hp q hq s t hs ht hst
        simp only [Set.mem_setOf_eq, Pi.add_apply, Pi.smul_apply, smul_eq_mul] at hp hq ⊢
        rw [abs_le] at *
        constructor <;> nlinarith
    exact hsub hin
  obtain ⟨lp2, g1, g2, g3⟩ := decay_guard (lp := lp') r7 rfl r9 hb2
  have hok1 := SS.Ok.replace (ε := 0) hfor hsh0 hs00 (by rfl) (lp := lp2) (by rw [g2]; exact r7) g3
  obtain ⟨ρ1, hsh1, -, hup⟩ := hok1.ex
  obtain ⟨te2, st2, hstep, -⟩ := hsh1.step_accepts hfor decayMode_real.dyns decayMode_real.sq
    (te := some te0) (fun u hu => by cases hu; exact r6 hfor.laws (by simp)) (by simp [hd, dynOf])
  obtain ⟨k1, -, k2, k3⟩ := hok1.step hfor (fun u hu => by cases hu; exact r6 hfor.laws (by simp)) hstep
  have hin2 : st2.stepIn = 1 := by rw [k2]; simp [hs00]
  have hpl : decayMode.Plain := .inl rfl
  have hb3 : ∀ z, st2.lp.Mem z → |z 0| ≤ 2 := by
    intro z hz
    obtain ⟨x, hx, hfl, -⟩ := (k3.mono (c' := 1) (by omega) (fun _ => ⟨trivial, .inr rfl⟩)).flow_of_mem hfor hpl trivial
      (by rw [hin2]) hz
    rw [hin2] at hfl
    cases hfl with
    | step h0 _ h1 =>
      cases h0 with
      | zero he =>
        obtain ⟨u, -, h1⟩ := h1
        have h1 := h1 0 (by simp [hd, decay_dims])
        rw [show d.dims = 1 from rfl, hd, decay_exp] at h1
        have hx2 := hb2 x (by rw [← g2]; exact hx)
        rw [← he 0 (by simp [hd, decay_dims])] at hx2
        rw [h1, show inputPart (dynOf decayA none 1) u 0 = 0 by simp [inputPart, dynOf], add_zero, abs_mul]
        nlinarith [abs_nonneg (Real.exp (-1))]
  obtain ⟨⟨ρ3, hsh3, -⟩, -⟩ := k3
  obtain ⟨lp3, g4, -⟩ := decay_guard (lp := st2.lp) hsh3.repr hsh3.n hsh3.obj hb3
  refine decay_rounds hfb hm (by rw [hslp]; exact hf) (by rw [hst]) (lp1 := lp1) (st1 := { st0 with lp := lp' }) (te1 := some te0)
    ?_ (by simp [hst0, hst]) (by simp [hst0, hst]) g1 hstep (by rw [k2]; simp [hst0, hst]) (by rw [k2]; simp [hst0, hst]) g4
  simp only [SS.applyApprox, bind_ok, assert_ok]
  exact ⟨(), hs00, hap⟩

theorem decay_env : LggEnv decayEnv where
  honest := idealSolver_complete.toHonest
  tol := by norm_num [decayEnv]
  model := rfl
  exp := rfl
  tau := by norm_num [decayEnv]
  mode := by
    intro i m hm he
    match i, hm with
    | 0, hm =>
      cases hm
      refine ⟨decayA, ⟨decayMode_real, by simp [decayMode], .inl rfl, ?_⟩, rfl, fun _ _ => rfl⟩
      rw [decayA_norm]; norm_num [decayEnv]
    | 1, hm => cases hm; simp [Mode.isError] at he
  out := by
    intro i m ts hm he hts ti hti t ht
    match i, hm with
    | 0, hm =>
      cases hts
      simp only [List.mem_singleton] at hti
      subst hti
      cases ht
      refine ⟨?_, _, rfl, rfl⟩
      intro g hg
      cases hg
      exact ⟨rfl, by intro r hr p hp; simp at hr; subst hr; simp at hp; subst hp; simp, by simp⟩
    | 1, hm => cases hm; simp [Mode.isError] at he

/-- The hypotheses of `C57_continuous_time_partial` are met: the analysis of `decayEnv` finishes with "System is
safe", and the motion `e^{-t}` is one the theorem speaks about. -/
example {s : ℝ} (h0 : 0 ≤ s) (h1 : s ≤ 2) :
    ¬ GuardHolds ({ src := 0, dst := 1, index := 0, guard := some (⟨1, [[(0, -1)]]⟩, [-10]) } : Tr ℝ)
      (fun _ => Real.exp (-s)) := by
  obtain ⟨σ, a1, a2, a3⟩ := decay_safe
  refine C57_continuous_time_partial decay_env (by norm_num [decayEnv]) a1 a2 a3 (List.mem_singleton.2 rfl) rfl rfl
    (Tm := 2) (w := fun t _ => Real.exp (-t)) (u := fun _ _ => 0) (by norm_num) ?_ ?_ (fun _ _ _ => ?_)
    (.inl ⟨rfl, h0⟩) h1 (by norm_num [decayEnv]; linarith) rfl (List.mem_singleton.2 rfl) rfl
  · refine ⟨fun i _ => by fun_prop, ⟨∅, by simp, fun t _ i hi => ?_⟩, fun t _ => ?_, fun inp h => by simp [decayMode] at h⟩
    · have : i < 1 := hi
      interval_cases i
      have : HasDerivAt (fun s : ℝ => Real.exp (-s)) (Real.exp (-t) * (-1)) t := (hasDerivAt_neg t).exp
      simpa [inputAt, Csr.row, dot, decayMode, decayA] using this
    · simp [Admissible, decayMode]
  · intro i hi
    have : i < 1 := hi
    interval_cases i
    simp
  · simp [InvHolds, decayMode]

end Hylaa
