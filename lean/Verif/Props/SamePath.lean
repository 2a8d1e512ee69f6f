import Verif.Props.Deagg
import Verif.Props.LggEx
import Verif.Props.LggJump

/-!
# C32, C41, negative: deaggregation when paths may be mixed

`Aggregated.require_same_path` (aggstrat.py:89) may be set to `False`: then operations from different
nodes are aggregated.  When one of these nodes is split, everything below it is removed from the waiting
list (`_get_node_leaf_ops`, aggdag.py:158-177), also what came from the other nodes, and only the split
node's part is computed again.
-/

set_option linter.unusedSectionVars false

namespace Hylaa
open Spec

/-- Variables `x`, `c` with `x' = 3 c`, `c' = 0` in all modes.  `start` (0) leads to `a` (1) without or
with `x := x + c`, and to `b` (2) with `x := x + 7 c`; `a` and `b` lead to `mid` (3), and `mid` to the error
mode (4) when `x ≥ 15`.  The invariants let one stay for one step in `start`, `a` and `b`. -/
def mixHA : HA ℚ :=
  { modes := [{ name := "start", id := 0, a := some ⟨2, [[(1, 3)], []]⟩, inv := [⟨2, [(0, 1)], 1⟩] },
      { name := "a", id := 1, a := some ⟨2, [[(1, 3)], []]⟩, inv := [⟨2, [(0, 1)], 5⟩] },
      { name := "b", id := 2, a := some ⟨2, [[(1, 3)], []]⟩, inv := [⟨2, [(0, 1)], 11⟩] },
      { name := "mid", id := 3, a := some ⟨2, [[(1, 3)], []]⟩ }, { name := "bad", id := 4 }]
    out := [[0, 1, 2], [3], [4], [5], []]
    trans := [{ src := 0, dst := 1, index := 0, guard := some (⟨2, [[(0, -1)]]⟩, [0]) },
      { src := 0, dst := 1, index := 1, guard := some (⟨2, [[(0, -1)]]⟩, [0])
        reset := some ⟨2, [[(0, 1), (1, 1)], [(1, 1)]]⟩ },
      { src := 0, dst := 2, index := 2, guard := some (⟨2, [[(0, -1)]]⟩, [0])
        reset := some ⟨2, [[(0, 1), (1, 7)], [(1, 1)]]⟩ },
      { src := 1, dst := 3, index := 0, guard := some (⟨2, [[(0, -1)]]⟩, [0]) },
      { src := 2, dst := 3, index := 0, guard := some (⟨2, [[(0, -1)]]⟩, [0]) },
      { src := 3, dst := 4, index := 0, guard := some (⟨2, [[(0, -1)]]⟩, [-15]) }] }

/-- Box aggregation of whatever enters the same mode, with deaggregation starting at the root. -/
def mixStrat (same : Bool) : AggStrat :=
  { kind := .box, pop := .minTime, addGuard := false, samePath := same, deagg := true, pref := .root }

def mixEnv (same : Bool) : Env ℚ :=
  { S := Simplex.solver 100
    T := { inter := 1 / 1000000, atol := 1 / 100000000, rtol := 1 / 100000, norm2 := 1 / 10000000000000000
           dblMax := 1000000000000 }
    set := { numSteps := 3, strat := some (mixStrat same) }
    ha := mixHA
    dyn := fun _ => exDyn 3
    epsTt := 1 / 1000
    dirs := fun _ _ _ _ n => .ok [(List.range n).map fun _ => 1] }

/-- The start: `x = 0, c = 1`. -/
def mixBox : List (ℕ × List (ℚ × ℚ)) := [(0, [(0, 0), (1, 1)])]

theorem mixEnv_noTt (b : Bool) : (mixEnv b).NoTt := by
  intro t ht _
  simp [mixEnv, mixHA] at ht
  rcases ht with rfl | rfl | rfl | rfl | rfl | rfl <;> rfl

theorem mixEnv_ok (b : Bool) : (mixEnv b).Ok where
  noApprox := rfl
  honest := Simplex.honest _
  tol := by norm_num [mixEnv]
  dynFor := by
    intro i m hm he
    have hcase : i = 0 ∨ i = 1 ∨ i = 2 ∨ i = 3 ∨ i = 4 := by
      have : i < 5 := lt_of_getElem? hm
      omega
    rcases hcase with rfl | rfl | rfl | rfl | rfl <;> simp [mixEnv, mixHA] at hm <;> subst hm <;>
      first
      | (simp [Mode.isError] at he; done)
      | exact ⟨exDyn_laws _, ⟨by simp [mixEnv, exDyn], by simp [mixEnv, exDyn], by simp⟩,
          by simp [mixEnv, exDyn], by simp [mixEnv, exDyn], by simp⟩
  plain := by
    intro i m hm he
    have hcase : i = 0 ∨ i = 1 ∨ i = 2 ∨ i = 3 ∨ i = 4 := by
      have : i < 5 := lt_of_getElem? hm
      omega
    rcases hcase with rfl | rfl | rfl | rfl | rfl <;> simp [mixEnv, mixHA] at hm <;> subst hm <;> simp [Mode.Plain]
  rows := by
    intro i m a hm ha
    have hcase : i = 0 ∨ i = 1 ∨ i = 2 ∨ i = 3 ∨ i = 4 := by
      have : i < 5 := lt_of_getElem? hm
      omega
    rcases hcase with rfl | rfl | rfl | rfl | rfl <;> simp [mixEnv, mixHA] at hm <;> subst hm <;> simp at ha <;>
      subst ha <;> rfl
  trs := by
    intro i m l ti t hm he hl hti ht
    have hcase : ti = 0 ∨ ti = 1 ∨ ti = 2 ∨ ti = 3 ∨ ti = 4 ∨ ti = 5 := by
      have : ti < 6 := lt_of_getElem? ht
      omega
    rcases hcase with rfl | rfl | rfl | rfl | rfl | rfl <;> simp [mixEnv, mixHA] at ht <;> subst ht <;>
      exact ⟨fun g hg => by
          cases hg
          exact ⟨⟨rfl, by simp [Csr.WF], by simp⟩, by simp [mixEnv, exDyn]⟩, by simp, by
            simp [Csr.WF]
            try (rintro a b (⟨h, -⟩ | ⟨h, -⟩) <;> omega), by simp,
            by simp, by simp⟩
  tt := by
    intro _ i m l ti t g _ _ _ _ ht htt
    rw [mixEnv_noTt b t (List.mem_of_getElem? ht) rfl] at htt
    cases htt
  zero := by
    intro _ i m a hm ha hn
    have hcase : i = 0 ∨ i = 1 ∨ i = 2 ∨ i = 3 ∨ i = 4 := by
      have : i < 5 := lt_of_getElem? hm
      omega
    rcases hcase with rfl | rfl | rfl | rfl | rfl <;> simp [mixEnv, mixHA] at hm <;> subst hm <;> simp at ha <;>
      subst ha <;> simp [Csr.noEntries] at hn

set_option maxRecDepth 100000 in
theorem mix_safe : okAnd (analyse (mixEnv false) mixBox 30) (fun σ =>
      σ.isFinished (mixEnv false) && decide (σ.verdict = .safeAgg) && σ.waiting.isEmpty &&
        σ.curState.isNone && !σ.doingReplay && decide (σ.nodes.map (fun n => n.parents) =
          [[0], [1, 2], [3], [4, 5], [1], [2], [7], [8]])) = true := by
  decide +kernel

set_option maxRecDepth 100000 in
/-- With `require_same_path = True` the error is found. -/
theorem mix_found : okAnd (analyse (mixEnv true) mixBox 30) (fun σ =>
      σ.isFinished (mixEnv true) && decide (σ.verdict = .reachable)) = true := by
  decide +kernel

/-- The state `x = a, c = 1` -/
def mixPt (a : ℚ) : ℕ → ℚ := fun j => if j = 0 then a else 1

theorem mixStep (m : Mode ℚ) (hu : m.inputs = none) (a b : ℚ) (hb : b = a + 3) :
    OneStep m (exDyn 3) (mixPt a) (mixPt b) := by
  subst hb
  refine ⟨fun _ => 0, fun _ h => (by rw [hu] at h; cases h), fun r hr => ?_⟩
  have : r = 0 ∨ r = 1 := by
    have : r < 2 := hr
    omega
  rcases this with rfl | rfl <;>
    simp [exDyn, mulV, inputPart, Finset.sum_range_succ, mixPt]

/-- From `x = 0`: one step to `x = 3`, jump to `b` with `x = 10`, one step to `x = 13`, jump to `mid`, one
step to `x = 16`, jump to the error mode. -/
theorem mix_unsafe (same : Bool) : ¬ (mixEnv same).hyb.Safe (BoxInit mixBox) := by
  intro h
  have inv : ∀ (u a : ℚ) (m : Mode ℚ), m.inv = [⟨2, [(0, 1)], u⟩] → a ≤ u → InvEps 0 m (mixPt a) := by
    intro u a m hm ha lc hlc
    rw [hm, List.mem_singleton] at hlc
    subst hlc
    simpa [dot, mixPt] using ha
  have r0 : (mixEnv same).hyb.Reach 0 (BoxInit mixBox) 0 (mixPt 0) 0 := by
    refine .init ⟨_, List.mem_singleton_self _, rfl, ?_⟩ rfl (inv 1 0 _ rfl (by norm_num))
    intro i hi
    have : i = 0 ∨ i = 1 := by
      have : i < 2 := hi
      omega
    rcases this with rfl | rfl <;> simp [mixPt]
  have r1 : (mixEnv same).hyb.Reach 0 (BoxInit mixBox) 2 (mixPt 10) (0 + 1) := by
    refine .jump (ti := 2) r0 ⟨_, _, mixPt 3, [0, 1, 2], rfl, rfl, .step (.zero fun _ _ => rfl)
      (inv 1 0 _ rfl (by norm_num)) (mixStep _ rfl 0 3 (by norm_num)), by simp, rfl, by simp, rfl, ⟨_, rfl, ?_⟩,
      ⟨fun _ => 0, by simp, ?_⟩, rfl, trivial⟩ (by simp [Env.hyb, Env.hybOn, mixEnv])
    · norm_num [Csr.le, mixPt, dot]
    · intro i hi
      have : i = 0 ∨ i = 1 := by
        have : i < 2 := hi
        omega
      rcases this with rfl | rfl <;> norm_num [Csr.row, mixPt, dot]
  have r2 : (mixEnv same).hyb.Reach 0 (BoxInit mixBox) 3 (mixPt 13) (0 + 1 + 1) := by
    refine .jump (ti := 4) r1 ⟨_, _, mixPt 13, [4], rfl, rfl, .step (.zero fun _ _ => rfl)
      (inv 11 10 _ rfl (by norm_num)) (mixStep _ rfl 10 13 (by norm_num)), by simp, rfl, by simp, rfl, ⟨_, rfl, ?_⟩,
      ⟨fun _ => 0, by simp, by simp⟩, rfl, trivial⟩ (by simp [Env.hyb, Env.hybOn, mixEnv])
    norm_num [Csr.le, mixPt, dot]
  have r3 : (mixEnv same).hyb.Reach 0 (BoxInit mixBox) 4 (mixPt 16) (0 + 1 + 1 + 1) := by
    refine .jump (ti := 5) r2 ⟨_, _, mixPt 16, [5], rfl, rfl, .step (.zero fun _ _ => rfl)
      (fun _ hlc => by simp at hlc) (mixStep _ rfl 13 16 (by norm_num)), by simp, rfl, by simp, rfl, ⟨_, rfl, ?_⟩,
      ⟨fun _ => 0, by simp, by simp⟩, rfl, trivial⟩ (by simp [Env.hyb, Env.hybOn, mixEnv])
    norm_num [Csr.le, mixPt, dot]
  exact absurd (h _ _ _ _ r3 rfl) (by decide)

/-- **C32, negative.** With `require_same_path = False` and deaggregation, "System is safe, although error
modes were reachable when aggregation was used" may be reported although an error mode is reachable: all other
assumptions of `C32_boxes_partial` are met. -/
theorem C32_false_without_same_path : ∃ (E : Env ℚ) (l : List (ℕ × List (ℚ × ℚ))) (n : ℕ) (σ : Core ℚ),
    E.Ok ∧ E.NoTt ∧ (∀ p ∈ l, ∀ m : Mode ℚ, E.ha.modes[p.1]? = some m → m.isError = false) ∧
    (∃ s, E.set.strat = some s ∧ s.deagg = true ∧ s.samePath = false) ∧ E.set.stopAgg = false ∧
    analyse E l n = .ok σ ∧ σ.isFinished E = true ∧ σ.verdict = .safeAgg ∧ ¬ E.hyb.Safe (BoxInit l) := by
  obtain ⟨σ, h, hσ⟩ := okAnd_ok mix_safe
  simp only [Bool.and_eq_true, decide_eq_true_eq] at hσ
  refine ⟨mixEnv false, mixBox, 30, σ, mixEnv_ok _, mixEnv_noTt _, ?_, ⟨_, rfl, rfl, rfl⟩, rfl, h,
    hσ.1.1.1.1.1, hσ.1.1.1.1.2, mix_unsafe _⟩
  intro p hp m hm
  simp only [mixBox, List.mem_singleton] at hp
  subst hp
  simp [mixEnv, mixHA] at hm
  subst hm
  rfl

/-- **C41, negative.** In the same run, after deaggregation nothing is left waiting or being computed, no
replay is going on and no concrete error was reported, although an error mode is reachable. -/
theorem C41_loses_states_without_same_path : ∃ (E : Env ℚ) (l : List (ℕ × List (ℚ × ℚ))) (n : ℕ) (σ : Core ℚ),
    E.Ok ∧ E.NoTt ∧ E.deaggOn ∧ E.set.stopAgg = false ∧ analyse E l n = .ok σ ∧ σ.hasConc = false ∧
    σ.doingReplay = false ∧ ¬ E.hyb.Safe (BoxInit l) ∧ ¬ (σ.WaitBad E ∨ σ.CurBad E) := by
  obtain ⟨σ, h, hσ⟩ := okAnd_ok mix_safe
  simp only [Bool.and_eq_true, decide_eq_true_eq, Bool.not_eq_true'] at hσ
  obtain ⟨⟨⟨⟨⟨-, hv⟩, hw⟩, hc⟩, hr⟩, -⟩ := hσ
  refine ⟨mixEnv false, mixBox, 30, σ, mixEnv_ok _, mixEnv_noTt _, ⟨_, rfl, rfl⟩, rfl, h, ?_, hr,
    mix_unsafe _, ?_⟩
  · unfold Core.verdict at hv
    cases hcc : σ.hasConc
    · rfl
    · rw [hcc] at hv; simp at hv
  · rintro (⟨o, ho, -⟩ | ⟨ν, sid, _, _, _, _, _, _, _, ho, -⟩)
    · rw [List.isEmpty_iff.1 hw] at ho; cases ho
    · rw [Option.isNone_iff_eq_none.1 hc] at ho; cases ho

/-! ### The message "System is safe, although error modes were reachable when aggregation was used"

Without deaggregation, an aggregated set that enters an error mode is not looked at again. -/

/-- Box aggregation without deaggregation. -/
def plainBox : AggStrat := { kind := .box }

set_option maxRecDepth 100000 in
theorem plainBox_safeAgg : okAnd (analyse (exEnv 4 (3 / 2) (some plainBox) 5) [(0, [(0, 0), (1, 1)])] 20) (fun σ =>
      σ.isFinished (exEnv 4 (3 / 2) (some plainBox) 5) && decide (σ.verdict = .safeAgg)) = true := by
  decide +kernel

/-- **C32, negative.** Without deaggregation this message is also given when an error mode is reachable
(which is why `C32_boxes_partial` reads it as a verdict only with deaggregation). -/
theorem C32_message_false_without_deaggregation :
    ∃ (E : Env ℚ) (l : List (ℕ × List (ℚ × ℚ))) (n : ℕ) (σ : Core ℚ),
      E.Ok ∧ E.NoTt ∧ E.SamePath ∧ ¬ E.deaggOn ∧ analyse E l n = .ok σ ∧ σ.isFinished E = true ∧
      σ.verdict = .safeAgg ∧ ¬ E.hyb.Safe (BoxInit l) := by
  obtain ⟨σ, h, hσ⟩ := okAnd_ok plainBox_safeAgg
  simp only [Bool.and_eq_true, decide_eq_true_eq] at hσ
  refine ⟨_, _, _, σ, exEnv_ok _ _ _ _, exEnv_noTt _ _ _ _ _ _, ?_, ?_, h, hσ.1, hσ.2, exUnsafe⟩
  · intro s h1 _
    cases h1
    rfl
  · rintro ⟨s, h1, h2⟩
    cases h1
    cases h2

end Hylaa
