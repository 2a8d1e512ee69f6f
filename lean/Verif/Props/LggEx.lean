import Verif.Props.LggSafe
import Verif.Proofs.ApproxNames

/-!
# C57, C35: what goes wrong with an approximation model

* without `process_urgent_guards` the first interval `[0, tau)` is never compared with the guards;
* the columns of the hull have no names `m{id}_i0`, so `make_counterexample` raises.
-/

set_option linter.unusedSectionVars false

namespace Hylaa
open Spec

section
variable (K : Type) [Field K]
/-- Mode 0: `x' = c`, `c' = 0`; transition 0 leads to the error mode 1 when `lo ≤ x ≤ hi`. -/
def fsHA (lo hi : K) : HA K :=
  { modes := [{ name := "up", id := 0, a := some ⟨2, [[(1, 1)], []]⟩ }, { name := "bad", id := 1 }]
    out := [[0], []]
    trans := [{ src := 0, dst := 1, index := 0, guard := some (⟨2, [[(0, -1)], [(0, 1)]]⟩, [-lo, hi]) }] }
end

/-- Two steps of length 1 with the given approximation model. -/
def fsEnv (am : ApproxModel) (urgent makeCe : Bool) (lo hi : ℚ) : Env ℚ :=
  { exEnv 2 0 none with
    ha := fsHA ℚ lo hi, dyn := fun _ => exDyn 1, approx := am
    set := { numSteps := 2, urgent := urgent, makeCe := makeCe }
    lgg := ⟨fun x => if x = 1 then 27183 / 10000 else 0, 1, 1 / 10 ^ 7, 10 ^ 5⟩ }

/-- **C57** is false for the first interval: with either approximation model (and without `process_urgent_guards`)
the analysis of `x' = c, c' = 0` from `x = 0, c = 1` finishes with "System is safe", although the motion `x(t) = t`
satisfies the guard `0.1 ≤ x ≤ 0.3` of the transition to the error mode at time `0.2`. -/
theorem C57_first_interval_unchecked :
    (∀ am : ApproxModel, am = .chull ∨ am = .lgg →
      ∃ σ, analyse (fsEnv am false true (1 / 10) (3 / 10)) [(0, [(0, 0), (1, 1)])] 4 = .ok σ ∧
        σ.isFinished (fsEnv am false true (1 / 10) (3 / 10)) = true ∧ σ.verdict = .safe) ∧
    ∃ (m : Mode ℝ) (a : Csr ℝ) (t : Tr ℝ) (w u : ℝ → ℕ → ℝ),
      (fsHA ℝ (1 / 10) (3 / 10)).modes[0]? = some m ∧ m.a = some a ∧ Moves m a 2 w u ∧
      Box [((0 : ℝ), 0), (1, 1)] (w 0) ∧ (fsHA ℝ (1 / 10) (3 / 10)).trans = [t] ∧ t.src = 0 ∧ t.dst = 1 ∧
      GuardHolds t (w (1 / 5)) := by
  refine ⟨?_, _, _, _, fun t i => if i = 0 then t else 1, fun _ _ => 0, rfl, rfl, ?_, ?_, rfl, rfl, rfl, ?_⟩
  · have key : ∀ am ∈ [ApproxModel.chull, ApproxModel.lgg],
        okAnd (analyse (fsEnv am false true (1 / 10) (3 / 10)) [(0, [(0, 0), (1, 1)])] 4)
          (fun σ => σ.isFinished (fsEnv am false true (1 / 10) (3 / 10)) && decide (σ.verdict = .safe)) = true := by
      set_option maxRecDepth 100000 in decide +kernel
    intro am ham
    obtain ⟨σ, h1, h2⟩ := okAnd_ok (key am (by simpa using ham))
    simp only [Bool.and_eq_true, decide_eq_true_eq] at h2
    exact ⟨σ, h1, h2⟩
  · refine ⟨fun i _ => ?_, ⟨∅, by simp, fun t _ i hi => ?_⟩, fun t _ => ?_, fun inp h => by simp at h⟩
    · split
      · exact continuousOn_id
      · exact continuousOn_const
    · have : i < 2 := hi
      interval_cases i
      · have : HasDerivAt (fun s : ℝ => s) 1 t := hasDerivAt_id t
        simpa [inputAt, Csr.row, dot] using this
      · simpa [inputAt, Csr.row, dot] using hasDerivAt_const t (1 : ℝ)
    · simp [Admissible]
  · intro i hi
    have : i < 2 := hi
    interval_cases i <;> simp
  · refine ⟨_, rfl, fun i hi => ?_⟩
    have : i < 2 := hi
    interval_cases i <;> simp [Csr.row, dot] <;> norm_num

/-- **C35/C33** with an approximation model (and `make_counterexample`, and no deaggregation): whatever automaton,
initial sets and solver, no run that returns reports "Error modes are reachable" - when a concrete set reaches the
guard of an error mode, `make_counterexample` raises, since the hull's columns have lost the names it looks for. -/
theorem C35_never_reported_with_approximation {K : Type} [Field K] [LinearOrder K] [IsStrictOrderedRing K] {E : Env K}
    (ham : E.approx = .chull ∨ E.approx = .lgg) (hce : E.set.makeCe = true)
    (hdg : ∀ s, E.set.strat = some s → s.deagg = false) {init : List (SS K)} {σ0 σ : Core K} {n : ℕ}
    (h0 : setup E init = .ok σ0) (h : runSteps E n σ0 = .ok σ) : σ.verdict ≠ .reachable ∧ σ.ce = [] := by
  have hd := runSteps_dumb ham hce hdg n (setup_dumb h0) h
  refine ⟨?_, hd.ce⟩
  unfold Core.verdict
  rw [hd.conc]
  cases σ.hasAgg <;> simp

/-- Beside it: the run from `x = 0` in which the guard `0.1 ≤ x ≤ 0.3` is reached in the first interval raises with
`make_counterexample` (RuntimeError/UnboundLocalError in Python) and reports the error without. -/
theorem C35_raises_with_approximation (am : ApproxModel) (ham : am = .chull ∨ am = .lgg) :
    analyse (fsEnv am true true (1 / 10) (3 / 10)) [(0, [(0, 0), (1, 1)])] 1 = .error .runtime ∧
    ∃ σ, analyse (fsEnv am true false (1 / 10) (3 / 10)) [(0, [(0, 0), (1, 1)])] 1 = .ok σ ∧
      σ.isFinished (fsEnv am true false (1 / 10) (3 / 10)) = true ∧ σ.verdict = .reachable := by
  have key : ∀ am ∈ [ApproxModel.chull, ApproxModel.lgg],
      (match analyse (fsEnv am true true (1 / 10) (3 / 10)) [(0, [(0, 0), (1, 1)])] 1 with
        | .ok _ => false | .error e => decide (e = .runtime)) = true ∧
      okAnd (analyse (fsEnv am true false (1 / 10) (3 / 10)) [(0, [(0, 0), (1, 1)])] 1)
        (fun σ => σ.isFinished (fsEnv am true false (1 / 10) (3 / 10)) && decide (σ.verdict = .reachable)) = true := by
    set_option maxRecDepth 100000 in decide +kernel
  obtain ⟨k1, k2⟩ := key am (by simpa using ham)
  refine ⟨?_, ?_⟩
  · cases hq : analyse (fsEnv am true true (1 / 10) (3 / 10)) [(0, [(0, 0), (1, 1)])] 1 with
    | ok σ => rw [hq] at k1; cases k1
    | error e => rw [hq] at k1; simpa using k1
  · obtain ⟨σ, h1, h2⟩ := okAnd_ok k2
    simp only [Bool.and_eq_true, decide_eq_true_eq] at h2
    exact ⟨σ, h1, h2⟩

end Hylaa
