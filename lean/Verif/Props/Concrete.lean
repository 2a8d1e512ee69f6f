import Verif.Proofs.Conc2
import Verif.Props.RunEx

/-!
# C33: a concrete error is real

`Hyb.Reach` (Spec/Run.lean) with the invariants relaxed by the tolerance of the intersection check.
-/

set_option linter.unusedSectionVars false

namespace Hylaa
open Spec
section
variable {K : Type} [Field K] [LinearOrder K] [IsStrictOrderedRing K]

/-- **C33** Without deaggregation: at every moment of the analysis, if the verdict is "Error modes are
reachable" then some run from an initial set enters an error mode within the time bound, staying in the
invariants up to the tolerance.  Every strategy, with or without urgent transitions, time-triggered
transitions and skipping of modes without dynamics.

Partial: with deaggregation the claim is false of the program (`C33_false_with_deaggregation`): replayed
sets are not checked against the time bound, nor against invariants at steps where the aggregated set was
not cut (so that the tolerance adds up). -/
theorem C33_concrete_error_partial {E : Env K} (hE : E.Sound) (hM : MinkOk E) (hd : ¬ E.deaggOn)
    {init : List (SS K)} (hi : ∀ st ∈ init, UserInit E st) {σ0 σ : Core K} {n : ℕ}
    (h0 : setup E init = .ok σ0) (hr : runSteps E n σ0 = .ok σ) (hv : σ.verdict = .reachable) :
    ∃ i x k m, E.hyb.Reach E.T.inter (InitSet init) i x k ∧ E.ha.modes[i]? = some m ∧
      m.isError = true := by
  have h := runSteps_conc hE hM hd n (setup_concReach hE (fun st hs => (hi st hs).ok hE.toBase) h0) hr
  refine h.conc ?_
  unfold Core.verdict at hv
  by_contra hc
  simp only [Bool.not_eq_true] at hc
  rw [hc] at hv
  simp only [Bool.false_eq_true, if_false] at hv
  split at hv <;> cases hv

/-- The same, from the boxes the user writes. -/
theorem C33_boxes_partial {E : Env K} (hE : E.Sound) (hM : MinkOk E) (hd : ¬ E.deaggOn)
    {l : List (ℕ × List (K × K))}
    (hl : ∀ p ∈ l, ∀ m : Mode K, E.ha.modes[p.1]? = some m → m.isError = false) {n : ℕ} {σ : Core K}
    (h : analyse E l n = .ok σ) (hv : σ.verdict = .reachable) :
    ∃ i x k m, E.hyb.Reach E.T.inter (BoxInit l) i x k ∧ E.ha.modes[i]? = some m ∧
      m.isError = true := by
  simp only [analyse, bind_ok] at h
  obtain ⟨init, h0, σ0, h1, h2⟩ := h
  obtain ⟨a, -, b⟩ := boxStates_spec hl h0
  obtain ⟨i, x, k, m, q1, q2, q3⟩ := C33_concrete_error_partial hE hM hd (fun st hs => (a st hs).1) h1 h2 hv
  refine ⟨i, x, k, m, ?_, q2, q3⟩
  clear q2 q3
  induction q1 with
  | init h hm hi => exact .init (b _ _ h) hm hi
  | jump _ hj hn ih => exact .jump ih hj hn

end

set_option maxRecDepth 100000 in
/-- Without aggregation, the error guard `3/2 ≤ x ≤ 5` is reached from `x ∈ [0, 1], c = 1`.  The
counterexample: from `x = 1/2, c = 1` two steps up in mode 0, then one step down in mode 1. -/
theorem exRun_reach : okAnd (exRun 4 (3 / 2) none 13) (fun σ =>
    decide (σ.ce.map (fun s => (s.mode, s.start, s.fin, s.steps, s.out)) =
      [(0, [1 / 2, 1], [5 / 2, 1], 2, some 0), (1, [5 / 2, 1], [3 / 2, 1], 1, some 1)]) &&
    σ.isFinished (exEnv 4 (3 / 2) none) && decide (σ.verdict = .reachable)) = true := by
  decide +kernel

/-- The hypotheses of **C33** are met: an error mode can be entered. -/
example : ∃ i x k m, (exEnv 4 (3 / 2) none).hyb.Reach (1 / 1000000)
      (BoxInit [(0, [(0, 1), (1, 1)])]) i x k ∧
    (exEnv 4 (3 / 2) none).ha.modes[i]? = some m ∧ m.isError = true := by
  obtain ⟨σ, h, hσ⟩ := okAnd_ok exRun_reach
  simp only [Bool.and_eq_true, decide_eq_true_eq] at hσ
  refine C33_boxes_partial (exEnv_ok _ _ _ _).toSound ?_ ?_ ?_ h hσ.2
  · intro t ht M hM
    simp [exEnv, exRunHA] at ht
    rcases ht with rfl | rfl <;> cases hM
  · rintro ⟨s, h1, -⟩
    cases h1
  · intro p hp m hm
    simp at hp
    subst hp
    simp [exEnv, exRunHA] at hm
    subst hm
    rfl

/-! ### The same claim is false with deaggregation

Mode 1 is entered with `x = 2, 3, 4` after 2, 3, 4 steps and then `x` decreases by `2/3` per step; the
error guard is `8/5 ≤ x ≤ 17/10`.  The aggregated set starts after 2 steps and may take 2 steps within the
bound 4; so may its parts, although the second of them started later: it reaches `x = 5/3` in 5 steps. -/

set_option maxRecDepth 100000 in
theorem exLate_reach : okAnd (analyse (exEnv 4 (8 / 5) (some exDeagg) (17 / 10) (-2 / 3) 0)
    [(0, [(0, 0), (1, 1)])] 14) (fun σ =>
      σ.isFinished (exEnv 4 (8 / 5) (some exDeagg) (17 / 10) (-2 / 3) 0) &&
        decide (σ.verdict = .reachable)) = true := by
  decide +kernel

set_option maxRecDepth 100000 in
theorem exLate_safe : okAnd (analyse (exEnv 4 (8 / 5) none (17 / 10) (-2 / 3) 0)
    [(0, [(0, 0), (1, 1)])] 15) (fun σ =>
      σ.isFinished (exEnv 4 (8 / 5) none (17 / 10) (-2 / 3) 0) && decide (σ.verdict = .safe)) = true := by
  decide +kernel

/-- **C33, negative.** With deaggregation "Error modes are reachable" may be reported although no run
enters an error mode within the time bound. -/
theorem C33_false_with_deaggregation : ∃ (E : Env ℚ) (l : List (ℕ × List (ℚ × ℚ))) (n : ℕ) (σ : Core ℚ),
    E.Ok ∧ E.NoTt ∧ MinkOk E ∧ E.SamePath ∧
    (∀ p ∈ l, ∀ m : Mode ℚ, E.ha.modes[p.1]? = some m → m.isError = false) ∧
    analyse E l n = .ok σ ∧ σ.isFinished E = true ∧ σ.verdict = .reachable ∧
    ∀ i x k m, E.hyb.Reach E.T.inter (BoxInit l) i x k → E.ha.modes[i]? = some m → m.isError = false := by
  have hl : ∀ p ∈ [((0 : ℕ), [((0 : ℚ), (0 : ℚ)), (1, 1)])], ∀ m : Mode ℚ,
      (exRunHA (8 / 5) (17 / 10) (-2 / 3)).modes[p.1]? = some m → m.isError = false := by
    intro p hp m hm
    simp at hp
    subst hp
    simp [exRunHA] at hm
    subst hm
    rfl
  obtain ⟨σ, h, hσ⟩ := okAnd_ok exLate_reach
  simp only [Bool.and_eq_true, decide_eq_true_eq] at hσ
  refine ⟨_, _, _, σ, exEnv_ok _ _ _ _ le_rfl, exEnv_noTt _ _ _ _ _ _, ?_, ?_, hl, h, hσ.1, hσ.2, ?_⟩
  · intro t ht M hM
    simp [exEnv, exRunHA] at ht
    rcases ht with rfl | rfl <;> cases hM
  · intro s h1 _
    cases h1
    rfl
  · obtain ⟨τ, g, hτ⟩ := okAnd_ok exLate_safe
    simp only [Bool.and_eq_true, decide_eq_true_eq] at hτ
    exact C32_boxes_partial (E := exEnv 4 (8 / 5) none (17 / 10) (-2 / 3) 0) (exEnv_ok _ _ _ _ le_rfl)
      (exEnv_noTt _ _ _ _ _ _) (fun s h1 => by cases h1) hl g hτ.1 (.inl hτ.2)

end Hylaa
