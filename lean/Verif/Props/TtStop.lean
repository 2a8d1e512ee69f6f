import Verif.Proofs.TtLoop
import Verif.Props.Tt
import Verif.Model.Core
import Verif.Proofs.Flow

/-!
# C44: dropping a state set after a time-triggered transition
-/

set_option linter.unusedSectionVars false

namespace Hylaa
open Spec Set

/-- **C44, partial.**  Suppose the run-time check of a time-triggered transition answers "taken" for a
set of a mode without inputs.  Then there is a guard row, and an invariant condition opposite to it,
such that a state of the set at which the guard row's value decreases fast enough (by `2 * epsilon`
within one time step `τ`) violates that invariant condition at every later sampled instant — so
dropping it loses nothing.  Missing: the check does not establish the hypothesis on the slope;
without it the claim is false (`C44_drops_staying_states`). -/
theorem C44_tt_stop_partial {E : Env ℝ} (hS : E.S.Honest) {lp lp' : Lp ℝ} {live : Bool}
    (hlp : Inst E.S lp live) {src : Mode ℝ} {a : Csr ℝ} (ha : src.a = some a)
    (hinv : src.InvWF a.nrows) {g : Csr ℝ × List ℝ} (hgw : g.1.WF) (hgn : g.1.ncols = a.nrows)
    (h : wasTtTaken E src lp g = .ok (lp', true)) :
    ∃ p ∈ g.1.rows.zip g.2, ∃ lc ∈ src.inv, ∀ (x : ℕ → ℝ) (τ : ℝ), lp.Mem x → 0 ≤ τ →
      dot p.1 (fun i => dot (a.row i) x) * τ ≤ -(2 * E.epsTt) →
      ∀ (T : ℝ) (w : ℝ → ℕ → ℝ), Solves a (fun _ _ => 0) T w → w 0 = x →
      ∀ t ∈ Icc τ T, ¬ dot lc.row (w t) ≤ lc.rhs := by
  obtain ⟨-, hcur, ho, -⟩ := hlp.inv hS
  simp only [wasTtTaken, ha, bind_ok, needSome_ok, Option.some.injEq] at h
  obtain ⟨_, rfl, h⟩ := h
  rcases ttLoop_spec hS hcur ⟨rfl, ho⟩ h with h1 | ⟨p, hp, lc, hr, hlc, habs, hopp, hflat⟩
  · cases h1
  refine ⟨p, hp, lc, hlc, fun x τ hx hτ hslope T w hw hw0 t ht hcon => ?_⟩
  have hpw : ∀ q ∈ p.1, q.1 < a.nrows := by
    intro q hq
    rw [← hgn]
    exact hgw p.1 (List.of_mem_zip hp).1 q hq
  have hlw : ∀ q ∈ lc.row, q.1 < a.nrows := fun q hq => hinv.lt lc hlc q hq
  -- the guard row's value along the trajectory
  have hval : dot p.1 (w t) = dot p.1 x + dot p.1 (fun i => dot (a.row i) x) * t := by
    have h1 : ∀ q ∈ p.1, q.2 * w t q.1 = q.2 * (x q.1 + dot (a.row q.1) x * t) := by
      intro q hq
      simp only [rowOnly, List.all_eq_true, Bool.or_eq_true, decide_eq_true_eq,
        List.contains_iff_mem] at hr
      rcases hr q hq with h0 | hm
      · rw [h0]; ring
      · rw [C29_tt_affine hm hw t ⟨hτ.trans ht.1, ht.2⟩, hw0]
    have h2 : dot p.1 (w t) = dot p.1 (fun i => x i + t * dot (a.row i) x) := by
      unfold dot
      congr 1
      apply List.map_congr_left
      intro q hq
      simp only
      rw [h1 q hq, mul_comm t]
      rfl
    rw [h2, dot_add, dot_smul]; ring
  have hneg : dot lc.row (w t) = -dot p.1 (w t) := by
    rw [dot_eq_sum_coefAt hlw, dot_eq_sum_coefAt hpw, ← Finset.sum_neg_distrib]
    refine Finset.sum_congr rfl fun j hj => ?_
    rw [hopp j (by rw [hgn]; exact Finset.mem_range.1 hj)]; ring
  have hx0 := hflat x hx
  rw [hgn, ← dot_eq_sum_coefAt hpw] at hx0
  have heps : 0 < E.epsTt := lt_of_le_of_lt (abs_nonneg _) habs
  have hs0 : dot p.1 (fun i => dot (a.row i) x) ≤ 0 := by
    by_contra hc
    push Not at hc
    have := mul_nonneg hc.le hτ
    linarith
  have := mul_le_mul_of_nonpos_left ht.1 hs0
  have h3 := (abs_lt.1 habs).2
  rw [hneg, hval] at hcon
  linarith

/-! ### The claim fails -/

/-- Three variables, `x' = a - b`, `a' = b' = 0`, invariant `x ≥ 0`. -/
def exTtMode : Mode ℝ :=
  { name := "t", id := 0, a := some ⟨3, [[(1, 1), (2, -1)], [], []]⟩, inv := [⟨3, [(0, -1)], 0⟩] }

/-- The guard `x ≤ 0`. -/
def exTtGuard : Csr ℝ × List ℝ := (⟨3, [[(0, 1)]]⟩, [0])

/-- In a one-point set every optimisation returns that point. -/
theorem minimize_point {S : Solver ℝ} (hS : S.Complete) {s : Sys ℝ} (hcur : s.cur + s.dims ≤ s.numCols)
    {p : ℕ → ℝ} (hp : ∀ x, s.Mem x ↔ ∀ i < s.dims, x i = p i) {lp : Lp ℝ} (hl : PlotLp s lp)
    {d : List ℝ} (hd : d.length ≤ s.dims) {is : List ℕ} (his : ∀ i ∈ is, i < s.dims) :
    ∃ lp', PlotLp s lp' ∧
      minimize S lp (some d) (some (is.map fun i => lp.cur + i)) true = .ok (lp', some (is.map p)) := by
  obtain ⟨v, hv, hvp⟩ := (hp p).2 fun _ _ => rfl
  have hval : ∀ w, s.Sat w → ∀ i < s.dims, w (s.cur + i) = p i := fun w hw =>
    (hp fun i => w (s.cur + i)).1 ⟨w, hw, fun _ _ => rfl⟩
  obtain ⟨rfl, ho⟩ := hl
  obtain ⟨lp', l, h⟩ := minimize_answers hS ho hcur hd (columns := some (is.map fun i => lp.cur + i))
    (f := true) (by
      intro cs hcs c hc
      cases hcs
      obtain ⟨i, hi, rfl⟩ := List.mem_map.1 hc
      have := his i hi
      omega) hv (fun w hw => le_of_eq (Finset.sum_congr rfl fun i hi => by
        have := Finset.mem_range.1 hi
        rw [hval v hv i (by omega), hval w hw i (by omega)]))
  obtain ⟨e1, e2, -, -, e5⟩ := minimize_spec hS.toHonest h ho
  obtain ⟨w, hw, hlw, -⟩ := e5 l rfl
  refine ⟨lp', ⟨e1, e2⟩, ?_⟩
  rw [h, hlw]
  simp only [colVals, List.map_map, Except.ok.injEq, Prod.mk.injEq, Option.some.injEq, true_and]
  exact List.map_congr_left fun i hi => hval w hw i (his i hi)

/-- `was_tt_taken` answers true for the set `{(0, α, 1)}` if `|α|` is at least its tolerance. -/
theorem exTt_taken (E : Env ℝ) (hE : E.S.Complete) (he : 0 < E.epsTt) (he1 : E.epsTt ≤ 1) (α : ℝ)
    (hα : E.epsTt ≤ |α|) :
    ∃ (lp lp' : Lp ℝ), fromBox E.S [(0, 0), (α, α), (1, 1)] exTtMode = .ok lp ∧
      (∃ live, Inst E.S lp live) ∧
      lp.Mem (fun i => if i = 0 then 0 else if i = 1 then α else 1) ∧
      wasTtTaken E exTtMode lp exTtGuard = .ok (lp', true) := by
  obtain ⟨lp, hlp⟩ := C01_from_box_accepts hE (box := [((0 : ℝ), 0), (α, α), (1, 1)]) exTtMode
    (by norm_num)
  have hm := C01_from_box hlp
  have hfb := hlp
  simp only [fromBox, bind_ok, assert_ok] at hlp
  obtain ⟨_, -, hlp⟩ := hlp
  have hH := Hist.construct hlp (by simp) (boxCsr_wf [((0 : ℝ), 0), (α, α), (1, 1)])
  obtain ⟨-, -, -, -, -, hdim, -⟩ := fromConstraints_ok hlp (by simp)
  have hdim : lp.dims = 3 := hdim
  obtain ⟨-, hcur, ho, -⟩ := (Inst.hist hH).inv hE.toHonest
  let p : ℕ → ℝ := fun i => if i = 0 then 0 else if i = 1 then α else 1
  have hpt : ∀ x, lp.Mem x ↔ ∀ i < lp.dims, x i = p i := by
    intro x
    rw [hdim]
    refine (hm x).trans ⟨fun h i hi => ?_, fun h i hi => ?_⟩
    · have := h i hi
      rcases i with _ | _ | _ | i
      · simp at this; simp [p]; linarith
      · simp at this; simp [p]; linarith
      · simp at this; simp [p]; linarith
      · omega
    · simp at hi
      have := h i hi
      rcases i with _ | _ | _ | i
      · simp [this, p]
      · simp [this, p]
      · simp [this, p]
      · omega
  have hun : ∀ i a, (unitVec 3 i (a : ℝ)).length = 3 := by intro i a; simp [unitVec]
  have one : ∀ l : Lp ℝ, PlotLp lp.toSys l → ∀ d : List ℝ, d.length = 3 → ∀ i < 3, ∃ l',
      PlotLp lp.toSys l' ∧ minimize E.S l (some d) (some [l.cur + i]) true = .ok (l', some [p i]) := by
    intro l hl d hd i hi
    obtain ⟨l', h1, h2⟩ := minimize_point hE hcur hpt hl (d := d) (by rw [hd, hdim]) (is := [i])
      (by simp [hdim, hi])
    exact ⟨l', h1, h2⟩
  have hld : ∀ l : Lp ℝ, PlotLp lp.toSys l → l.dims = 3 := fun l hl => by rw [hl.sys, hdim]
  have hlc : ∀ l : Lp ℝ, PlotLp lp.toSys l → l.cur = lp.cur := fun l hl => by rw [hl.sys]
  obtain ⟨l1, p1, h1⟩ := one lp ⟨rfl, ho⟩ (unitVec 3 1 1) (hun _ _) 1 (by norm_num)
  obtain ⟨l2, p2, h2⟩ := one l1 p1 (unitVec 3 1 (-1)) (hun _ _) 1 (by norm_num)
  obtain ⟨l3, p3, h3⟩ := one l2 p2 (unitVec 3 2 1) (hun _ _) 2 (by norm_num)
  obtain ⟨l4, p4, h4⟩ := one l3 p3 (unitVec 3 2 (-1)) (hun _ _) 2 (by norm_num)
  obtain ⟨l5, p5, h5⟩ := minimize_point hE hcur hpt p4
    (d := (List.range 3).map (coefAt [((0 : ℕ), (1 : ℝ))])) (by simp [hdim]) (is := [0, 1, 2]) (by simp [hdim])
  obtain ⟨l6, p6, h6⟩ := minimize_point hE hcur hpt p5
    (d := ((List.range 3).map (coefAt [((0 : ℕ), (1 : ℝ))])).map fun x => -x) (by simp [hdim]) (is := [0, 1, 2])
    (by simp [hdim])
  have hp12 : p 1 = α ∧ p 2 = 1 ∧ p 0 = 0 := by simp [p]
  have haff : affineLoop E.S E.epsTt lp [1, 2] = .ok (l4, true) := by
    rw [hlc l1 p1] at h2
    rw [hlc l3 p3] at h4
    have hn : ∀ β : ℝ, E.epsTt ≤ |β| → ¬ ((|β - β| > E.epsTt) ∨ |β| < E.epsTt) := by
      intro β hβ
      simp only [sub_self, abs_zero, not_or, not_lt, gt_iff_lt]
      exact ⟨he.le, hβ⟩
    rw [hlc l2 p2] at h3
    unfold affineLoop
    simp only [bind_ok, needSome_ok]
    refine ⟨_, by rw [hdim]; exact h1, α, by simp [hp12], _, by rw [hdim]; exact h2, α,
      by simp [hp12], ?_⟩
    rw [if_neg (hn α hα)]
    unfold affineLoop
    simp only [bind_ok, needSome_ok]
    refine ⟨_, by rw [hld l2 p2, hlc l2 p2]; exact h3, 1, by simp [hp12], _,
      by rw [hld l2 p2, hlc l2 p2]; exact h4, 1, by simp [hp12], ?_⟩
    rw [if_neg (hn 1 (by simpa using he1))]
    rfl
  refine ⟨lp, l6, hfb, ⟨_, Inst.hist hH⟩, (hpt p).2 fun _ _ => rfl, ?_⟩
  · have hv : affineVars (⟨3, [[(1, 1), (2, -1)], [], []]⟩ : Csr ℝ) ([(0, 1)] : SRow ℝ) = [1, 2] := by
      norm_num [affineVars, Csr.row]
      rfl
    have hc : (rowOnly (getTtVars (⟨3, [[(1, 1), (2, -1)], [], []]⟩ : Csr ℝ)) ([(0, 1)] : SRow ℝ) &&
        exTtMode.inv.any (fun lc => decide (|lc.rhs - -0| < E.epsTt) &&
          oppositeRow 3 lc.row ([(0, 1)] : SRow ℝ))) = true := by
      norm_num [rowOnly, getTtVars, constantVars, Csr.nrows, Csr.row, List.range_succ, exTtMode,
        oppositeRow, coefAt, he]
    have hn := hld l4 p4
    have h56 : minimize E.S l5 (some (((List.range 3).map (coefAt [((0 : ℕ), (1 : ℝ))])).map fun x => -x))
        (some ((List.range l4.dims).map fun n => l4.cur + n)) true = .ok (l6, some ([0, 1, 2].map p)) := by
      rw [hn, hlc l4 p4, ← hlc l5 p5]; exact h6
    have h55 : minimize E.S l4 (some ((List.range 3).map (coefAt [((0 : ℕ), (1 : ℝ))])))
        (some ((List.range l4.dims).map fun n => l4.cur + n)) true = .ok (l5, some ([0, 1, 2].map p)) := by
      rw [hn]; exact h5
    have hdd : dotDense ((List.range 3).map (coefAt [((0 : ℕ), (1 : ℝ))])) ([0, 1, 2].map p) = 0 := by
      norm_num [dotDense, List.range_succ, coefAt, hp12, p]
    simp only [wasTtTaken, exTtGuard, List.zip_cons_cons, List.zip_nil_left, bind_ok, needSome_ok]
    refine ⟨_, rfl, ?_⟩
    simp only [ttLoop, hc, if_true, hv, haff, bind, Except.bind, h55, h56, hdd, Option.getD_some]
    simp [he]

/-- **C44 fails.**  In the mode `x' = a - b` with `a = b = 1`, the point `x = 0` satisfies the guard
`x ≤ 0` and stays in the invariant `x ≥ 0` for ever; `was_tt_taken` nevertheless answers true for the
set `{(0, 1, 1)}` (it only checks that `a` and `b` are constant and non-zero), and the set is
dropped. -/
theorem C44_drops_staying_states (E : Env ℝ) (hE : E.S.Complete) (he : 0 < E.epsTt)
    (he1 : E.epsTt ≤ 1) :
    ∃ (lp lp' : Lp ℝ) (p : ℕ → ℝ), fromBox E.S [(0, 0), (1, 1), (1, 1)] exTtMode = .ok lp ∧
      lp.Mem p ∧ wasTtTaken E exTtMode lp exTtGuard = .ok (lp', true) ∧
      (∀ T, Solves (⟨3, [[(1, 1), (2, -1)], [], []]⟩ : Csr ℝ) (fun _ _ => 0) T (fun _ => p)) ∧
      ∀ lc ∈ exTtMode.inv, dot lc.row p ≤ lc.rhs := by
  obtain ⟨lp, lp', h1, -, h2, h3⟩ := exTt_taken E hE he he1 1 (by simpa using he1)
  let p : ℕ → ℝ := fun i => if i = 0 then 0 else if i = 1 then 1 else 1
  refine ⟨lp, lp', p, h1, h2, h3, ?_, ?_⟩
  · intro T
    refine ⟨fun i _ => continuousOn_const, fun i hi t _ => ?_⟩
    have hz : dot ((⟨3, [[(1, 1), (2, -1)], [], []]⟩ : Csr ℝ).row i) p + 0 = 0 := by
      rcases i with _ | _ | _ | i
      · norm_num [Csr.row, p]
      · norm_num [Csr.row, p]
      · norm_num [Csr.row, p]
      · norm_num [Csr.row, p]
    simp only [hz]
    exact hasDerivWithinAt_const _ _ _
  · intro lc hlc
    simp only [exTtMode, List.mem_singleton] at hlc
    subst hlc
    norm_num [p]

/-- The hypotheses of `C44_tt_stop_partial` can be met, with a slope of `-2`. -/
example (E : Env ℝ) (hE : E.S.Complete) (he : 0 < E.epsTt) (he1 : E.epsTt ≤ 1) :
    ∃ (lp lp' : Lp ℝ) (live : Bool) (a : Csr ℝ) (x : ℕ → ℝ), Inst E.S lp live ∧ exTtMode.a = some a ∧
      exTtMode.InvWF a.nrows ∧ exTtGuard.1.WF ∧ exTtGuard.1.ncols = a.nrows ∧
      wasTtTaken E exTtMode lp exTtGuard = .ok (lp', true) ∧ lp.Mem x ∧
      ∀ p ∈ exTtGuard.1.rows.zip exTtGuard.2, dot p.1 (fun i => dot (a.row i) x) * 1 ≤ -(2 * E.epsTt) := by
  obtain ⟨lp, lp', h1, ⟨live, h2⟩, h3, h4⟩ := exTt_taken E hE he he1 (-1) (by simpa using he1)
  refine ⟨lp, lp', live, _, _, h2, rfl, ⟨?_, ?_, ?_⟩, ?_, rfl, h4, h3, ?_⟩
  · simp [exTtMode, Csr.nrows]
  · simp [exTtMode, Csr.nrows]
  · simp [exTtMode]
  · intro r hr; simp [exTtGuard] at hr; subst hr; simp [exTtGuard]
  · intro p hp
    simp only [exTtGuard, List.zip_cons_cons, List.zip_nil_left, List.mem_singleton] at hp
    subst hp
    norm_num [Csr.row]
    linarith

end Hylaa
