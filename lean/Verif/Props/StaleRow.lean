import Verif.Props.LggJump
import Verif.Props.SamePath

/-!
# C32 with an approximation model and invariants

The approximation models replace the LP but keep the row numbers of the invariant's conditions.  In the new LP such a
number belongs to another row; if that is an equality, the condition becomes an equality too.
-/

set_option linter.unusedSectionVars false

namespace Hylaa
open Spec

/-- Mode 0: one variable `x' = 0`; transition 0 leads to mode 1.  Mode 1: `x' = x` with the invariant `x ≤ 1`; transition 1
leads to the error mode 2 when `x ≤ -2`. -/
def staleHA : HA ℚ :=
  { modes := [{ name := "wait", id := 0, a := some ⟨1, [[]]⟩ },
      { name := "go", id := 1, a := some ⟨1, [[(0, 1)]]⟩, inv := [⟨1, [(0, 1)], 1⟩] }, { name := "bad", id := 2 }]
    out := [[0], [1], []]
    trans := [{ src := 0, dst := 1, index := 0, guard := some (⟨1, []⟩, []) },
      { src := 1, dst := 2, index := 0, guard := some (⟨1, [[(0, 1)]]⟩, [-2]) }] }

/-- One variable that never changes. -/
def stillDyn : Dyn ℚ := ⟨1, fun _ => ⟨1, 1, fun i j => if i = 0 ∧ j = 0 then 1 else 0⟩, none, none⟩

theorem stillDyn_laws : stillDyn.Laws := by
  refine ⟨fun k => ⟨rfl, rfl⟩, fun k => ?_, fun N h => by simp [stillDyn] at h⟩
  simp only [stillDyn, Mat.mul, Mat.mk.injEq, true_and]
  funext i j
  rw [Finset.sum_range_succ, Finset.sum_range_zero]
  by_cases i0 : i = 0 <;> by_cases j0 : j = 0 <;> simp [i0, j0]

/-- One variable that doubles in every step: `x' = x` with the step size `ln 2`. -/
def doubleDyn : Dyn ℚ := ⟨1, fun k => ⟨1, 1, fun i j => if i = 0 ∧ j = 0 then 2 ^ k else 0⟩, none, none⟩

theorem doubleDyn_laws : doubleDyn.Laws := by
  refine ⟨fun k => ⟨rfl, rfl⟩, fun k => ?_, fun N h => by simp [doubleDyn] at h⟩
  simp only [doubleDyn, Mat.mul, Mat.mk.injEq, true_and]
  funext i j
  rw [Finset.sum_range_succ, Finset.sum_range_zero]
  by_cases i0 : i = 0 <;> by_cases j0 : j = 0 <;> simp [i0, j0, pow_succ, mul_comm]

/-- Two steps with the given approximation model, no aggregation. -/
def staleEnv (am : ApproxModel) : Env ℚ :=
  { exEnv 2 0 none with
    ha := staleHA, dyn := fun i => if i = 0 then stillDyn else doubleDyn, approx := am
    set := { numSteps := 2, makeCe := false, strat := none }
    lgg := ⟨fun x => if x = 1 then 27183 / 10000 else 0, 1, 1 / 10 ^ 7, 10 ^ 5⟩ }

/-- `x` between -1 and 2 -/
def staleBox : List (ℕ × List (ℚ × ℚ)) := [(0, [(-1, 2)])]


theorem staleEnv_noTt (am : ApproxModel) : (staleEnv am).NoTt := by
  intro t ht _
  simp [staleEnv, staleHA] at ht
  rcases ht with rfl | rfl <;> rfl

/-- Without approximation model all assumptions of `C32` are met. -/
theorem staleEnv_ok : (staleEnv .none).Ok where
  noApprox := rfl
  honest := Simplex.honest _
  tol := by norm_num [staleEnv, exEnv]
  dynFor := by
    intro i m hm he
    have hcase : i = 0 ∨ i = 1 ∨ i = 2 := by
      have : i < 3 := lt_of_getElem? hm
      omega
    rcases hcase with rfl | rfl | rfl <;> simp [staleEnv, staleHA] at hm <;> subst hm <;>
      first
      | (simp [Mode.isError] at he; done)
      | exact ⟨stillDyn_laws, ⟨by simp [staleEnv, stillDyn], by simp [staleEnv, stillDyn], by simp⟩,
          by simp [staleEnv, stillDyn], by simp [staleEnv, stillDyn], by simp⟩
      | exact ⟨doubleDyn_laws, ⟨by simp [staleEnv, doubleDyn], by simp [staleEnv, doubleDyn], by simp⟩,
          by simp [staleEnv, doubleDyn], by simp [staleEnv, doubleDyn], by simp⟩
  plain := by
    intro i m hm he
    have hcase : i = 0 ∨ i = 1 ∨ i = 2 := by
      have : i < 3 := lt_of_getElem? hm
      omega
    rcases hcase with rfl | rfl | rfl <;> simp [staleEnv, staleHA] at hm <;> subst hm <;> simp [Mode.Plain]
  rows := by
    intro i m a hm ha
    have hcase : i = 0 ∨ i = 1 ∨ i = 2 := by
      have : i < 3 := lt_of_getElem? hm
      omega
    rcases hcase with rfl | rfl | rfl <;> simp [staleEnv, staleHA] at hm <;> subst hm <;> simp at ha <;>
      subst ha <;> rfl
  trs := by
    intro i m l ti t hm he hl hti ht
    have hcase : i = 0 ∨ i = 1 ∨ i = 2 := by
      have : i < 3 := lt_of_getElem? hm
      omega
    rcases hcase with rfl | rfl | rfl <;> simp [staleEnv, staleHA] at hl <;> subst hl <;>
      simp at hti <;> subst hti <;> simp [staleEnv, staleHA] at ht <;> subst ht <;>
      exact ⟨fun g hg => by
          cases hg
          exact ⟨⟨rfl, by simp [Csr.WF], by simp⟩, by simp [staleEnv, stillDyn, doubleDyn]⟩, by simp, by
            simp [Csr.WF], by simp, by simp, by simp⟩
  tt := by
    intro _ i m l ti t g _ _ _ _ ht htt
    rw [staleEnv_noTt .none t (List.mem_of_getElem? ht) rfl] at htt
    cases htt
  zero := by
    intro _ i m a hm ha hn
    have hcase : i = 0 ∨ i = 1 ∨ i = 2 := by
      have : i < 3 := lt_of_getElem? hm
      omega
    rcases hcase with rfl | rfl | rfl <;> simp [staleEnv, staleHA] at hm <;> subst hm <;> simp at ha <;>
      subst ha <;> simp [Csr.noEntries] at hn
    refine ⟨rfl, fun r hr c hc => ?_⟩
    have h1 : r = 0 := by
      have : r < 1 := hr
      omega
    have h2 : c = 0 := by
      have : c < 1 := hc
      omega
    subst h1; subst h2
    simp [staleEnv, stillDyn]

/-- `x = a` -/
def stalePt (a : ℚ) : ℕ → ℚ := fun _ => a

/-- From `x = -1`: jump after a step; one step to `x = -2`; jump to the error mode. -/
theorem stale_unsafe (am : ApproxModel) : ¬ (staleEnv am).hyb.Safe (BoxInit staleBox) := by
  intro h
  have r0 : (staleEnv am).hyb.Reach 0 (BoxInit staleBox) 0 (stalePt (-1)) 0 := by
    refine .init ⟨_, List.mem_singleton_self _, rfl, ?_⟩ rfl (fun _ hlc => by simp at hlc)
    intro i hi
    have : i = 0 := by
      have : i < 1 := hi
      omega
    subst this
    norm_num [stalePt]
  have r1 : (staleEnv am).hyb.Reach 0 (BoxInit staleBox) 1 (stalePt (-1)) (0 + 1) := by
    refine .jump (ti := 0) r0 ⟨_, _, stalePt (-1), [0], rfl, rfl, .step (.zero fun _ _ => rfl)
      (fun _ hlc => by simp at hlc) ⟨fun _ => 0, fun _ hu => (by cases hu), fun r hr => ?_⟩, by simp, rfl, by simp, rfl,
      ⟨_, rfl, ?_⟩, ⟨fun _ => 0, by simp, fun i _ => by simp [stalePt]⟩, rfl, trivial⟩ (by simp [Env.hyb, Env.hybOn, staleEnv])
    · have : r = 0 := by
        have : r < 1 := hr
        omega
      subst this
      simp [staleEnv, Env.hyb, Env.hybOn, stillDyn, mulV, inputPart, stalePt]
    · simp [Csr.le]
  have r2 : (staleEnv am).hyb.Reach 0 (BoxInit staleBox) 2 (stalePt (-2)) (0 + 1 + 1) := by
    refine .jump (ti := 1) r1 ⟨_, _, stalePt (-2), [1], rfl, rfl, .step (.zero fun _ _ => rfl)
      (fun lc hlc => ?_) ⟨fun _ => 0, fun _ hu => (by cases hu), fun r hr => ?_⟩, by simp, rfl, by simp, rfl,
      ⟨_, rfl, ?_⟩, ⟨fun _ => 0, by simp, fun i _ => by simp [stalePt]⟩, rfl, trivial⟩ (by simp [Env.hyb, Env.hybOn, staleEnv])
    · simp only [List.mem_singleton] at hlc
      subst hlc
      norm_num [dot, stalePt]
    · have : r = 0 := by
        have : r < 1 := hr
        omega
      subst this
      norm_num [staleEnv, Env.hyb, Env.hybOn, doubleDyn, mulV, inputPart, stalePt]
    · norm_num [Csr.le, stalePt, dot, Csr.row]
  exact absurd (h _ _ _ _ r2 rfl) (by decide)

set_option maxRecDepth 100000 in
theorem stale_found : okAnd (analyse (staleEnv .none) staleBox 5) (fun σ =>
      σ.isFinished (staleEnv .none) && decide (σ.verdict = .reachable)) = true := by
  decide +kernel

set_option maxRecDepth 100000 in
theorem stale_safe : okAnd (analyse (staleEnv .chull) staleBox 5) (fun σ =>
      σ.isFinished (staleEnv .chull) && decide (σ.verdict = .safe)) = true := by
  decide +kernel

/-- **C32** fails with an approximation model for modes with invariants: with the convex hull model the finished analysis reports "System is safe" although
a run of the discrete-time system, which the exact analysis finds, enters an error mode. -/
theorem C32_stale_row_with_chull : ∃ (E : Env ℚ) (l : List (ℕ × List (ℚ × ℚ))) (n : ℕ) (σ σ' : Core ℚ),
    ({ E with approx := .none } : Env ℚ).Ok ∧ E.NoTt ∧ E.approx = .chull ∧ analyse E l n = .ok σ ∧
      σ.isFinished E = true ∧ σ.verdict = .safe ∧ ¬ E.hyb.Safe (BoxInit l) ∧
      analyse { E with approx := .none } l n = .ok σ' ∧ σ'.verdict = .reachable := by
  obtain ⟨σ, h1, h2⟩ := okAnd_ok stale_safe
  obtain ⟨σ', h3, h4⟩ := okAnd_ok stale_found
  simp only [Bool.and_eq_true, decide_eq_true_eq] at h2 h4
  exact ⟨staleEnv .chull, staleBox, 5, σ, σ', staleEnv_ok, staleEnv_noTt _, rfl, h1, h2.1, h2.2, stale_unsafe _, h3, h4.2⟩

end Hylaa
