import Verif.Props.RunEx

/-!
# C34: an automaton that can jump forever without passing time
-/

set_option linter.unusedSectionVars false

namespace Hylaa
open Spec

section
variable {K : Type} [Field K] [LinearOrder K] [IsStrictOrderedRing K]

theorem Forever.tracked (H : Hyb K) : Tracked H H.Forever where
  next := by
    rintro i x n ⟨mode, pt, dwell, ti, rfl, rfl, h⟩
    refine .inr ⟨dwell 0, ti 0, mode 1, pt 1, (h 0).1, by simpa using (h 0).2,
      fun k => mode (k + 1), fun k => pt (k + 1), fun k => dwell (k + 1), fun k => ti (k + 1), rfl, rfl, fun k => ⟨(h (k + 1)).1, ?_⟩⟩
    have := (h (k + 1)).2
    rw [Finset.sum_range_succ'] at this
    simp only
    omega
  prev := by
    rintro i x n d t j y hj hn ⟨mode, pt, dwell, ti, rfl, rfl, h⟩
    refine ⟨fun k => k.casesOn i mode, fun k => k.casesOn x pt, fun k => k.casesOn d dwell, fun k => k.casesOn t ti, rfl, rfl,
      fun k => ?_⟩
    cases k with
    | zero => exact ⟨hj, by simpa using hn⟩
    | succ k =>
      refine ⟨(h k).1, ?_⟩
      rw [Finset.sum_range_succ']
      have := (h k).2
      show n + ((∑ l ∈ Finset.range (k + 1), dwell l) + d) ≤ _
      omega
  anti := by
    rintro i x n n' ⟨mode, pt, dwell, ti, h1, h2, h⟩ hn
    exact ⟨mode, pt, dwell, ti, h1, h2, fun k => ⟨(h k).1, le_trans (by omega) (h k).2⟩⟩

/-- **C34** needs an assumption on urgent transitions: if from an initial state there is a run with infinitely many jumps
within the time bound, the analysis never ends with a "safe" message, with any aggregation strategy and any (honest) solver. -/
theorem C34_endless_run_never_ends {E : Env K} (hE : E.Ok) (hnt : E.NoTt) (hsp : E.SamePath)
    {l : List (ℕ × List (K × K))} (hl : ∀ p ∈ l, ∀ m : Mode K, E.ha.modes[p.1]? = some m → m.isError = false)
    (hX : ∃ i x m, BoxInit l i x ∧ E.ha.modes[i]? = some m ∧ InvEps 0 m x ∧ E.hyb.Forever i x 0)
    {n : ℕ} {σ : Core K} (h : analyse E l n = .ok σ)
    (hv : σ.verdict = .safe ∨ (σ.verdict = .safeAgg ∧ E.deaggOn ∧ E.set.stopAgg = false)) : σ.isFinished E = false := by
  letI : JumpAt K := ⟨fun _ _ => True⟩
  have hE' : E.OkJ := hE
  simp only [analyse, bind_ok] at h
  obtain ⟨init, h0, σ0, h1, h2⟩ := h
  obtain ⟨a, b, -⟩ := boxStates_spec hl h0
  obtain ⟨gh, hI⟩ := setup_spec hE' (fun st hs => (a st hs).1.ok hE.toBase) h1
  have hG := runSteps_spec hE' hsp n (.inr ⟨gh, .inr (.inl hI)⟩) (.inl hnt) h2
  by_contra hf
  refine hG.nothing_left (by simpa using hf) (verdict_noFlag hv) (Forever.tracked _) ?_
  obtain ⟨i, x, m, q1, q2, q3, q4⟩ := hX
  exact ⟨i, x, m, b _ _ q1, q2, q3, q4⟩

end

/-! ### A self-loop with a true guard -/

/-- One mode `x' = c`, with the self-loop `x ≤ 5`, looked at at once. -/
def spinEnv : Env ℚ :=
  { exEnv 2 10 none with
    set := { numSteps := 2, strat := none, urgent := true }
    ha := { modes := [{ name := "m", id := 0, a := some ⟨2, [[(1, 1)], []]⟩ }]
            out := [[0]]
            trans := [{ src := 0, dst := 0, index := 0, guard := some (⟨2, [[(0, 1)]]⟩, [5]) }] } }

theorem spinEnv_noTt : spinEnv.NoTt := by
  intro t ht _
  simp [spinEnv] at ht
  subst ht
  rfl

theorem spinEnv_ok : spinEnv.Ok where
  noApprox := rfl
  honest := Simplex.honest _
  tol := by simp [spinEnv, exEnv]
  dynFor := by
    intro i m hm he
    have : i = 0 := by
      have : i < 1 := lt_of_getElem? hm
      omega
    subst this
    simp [spinEnv] at hm
    subst hm
    exact ⟨exDyn_laws _, ⟨by simp [spinEnv, exEnv, exDyn], by simp [spinEnv, exEnv, exDyn], by simp⟩,
      by simp [spinEnv, exEnv, exDyn], by simp [spinEnv, exEnv, exDyn], by simp⟩
  plain := by
    intro i m hm he
    have : i = 0 := by
      have : i < 1 := lt_of_getElem? hm
      omega
    subst this
    simp [spinEnv] at hm
    subst hm
    simp [Mode.Plain]
  rows := by
    intro i m a hm ha
    have : i = 0 := by
      have : i < 1 := lt_of_getElem? hm
      omega
    subst this
    simp [spinEnv] at hm
    subst hm
    simp at ha
    subst ha
    rfl
  trs := by
    intro i m l ti t hm he hl hti ht
    have : ti = 0 := by
      have : ti < 1 := lt_of_getElem? ht
      omega
    subst this
    simp [spinEnv] at ht
    subst ht
    exact ⟨fun g hg => by
      cases hg
      exact ⟨⟨rfl, by simp [Csr.WF], by simp⟩, by simp [spinEnv, exEnv, exDyn]⟩, by simp, by simp, by simp, by simp, by simp⟩
  tt := by
    intro _ i m l ti t g _ _ _ _ ht htt
    rw [spinEnv_noTt t (List.mem_of_getElem? ht) rfl] at htt
    cases htt
  zero := by
    intro _ i m a hm ha hn
    have : i = 0 := by
      have : i < 1 := lt_of_getElem? hm
      omega
    subst this
    simp [spinEnv] at hm
    subst hm
    simp at ha
    subst ha
    simp [Csr.noEntries] at hn

/-- Jumping forever at `x = 0`. -/
theorem spin_forever : spinEnv.hyb.Forever 0 (fun _ => 0) 0 := by
  refine ⟨fun _ => 0, fun _ _ => 0, fun _ => 0, fun _ => 0, rfl, rfl, fun k => ⟨?_, by simp⟩⟩
  refine ⟨{ name := "m", id := 0, a := some ⟨2, [[(1, 1)], []]⟩ }, _, fun _ => 0, [0], rfl, rfl, .zero fun _ _ => rfl, fun _ => ⟨rfl, ?_⟩, rfl,
    by simp, rfl, ?_, ?_, rfl, trivial⟩
  · intro lc hlc; simp at hlc
  · simp [GuardHolds, Csr.le, dot]
  · exact ⟨fun _ => 0, by simp, fun i _ => by simp⟩

set_option maxRecDepth 100000 in
theorem spin_run : okAnd (analyse spinEnv [(0, [(0, 1), (0, 1)])] 6) (fun σ =>
    !σ.isFinished spinEnv && decide (σ.verdict = .safe)) = true := by decide +kernel

/-- The analysis of the self-loop never ends with a "safe" message; the run `spin_run` of it is going on. -/
theorem C34_urgent_cycle_never_ends (n : ℕ) {σ : Core ℚ} (h : analyse spinEnv [(0, [(0, 1), (0, 1)])] n = .ok σ)
    (hv : σ.verdict = .safe) : σ.isFinished spinEnv = false := by
  refine C34_endless_run_never_ends spinEnv_ok spinEnv_noTt (fun s h _ => by cases h) (fun p hp m hm => ?_) ?_ h (.inl hv)
  · simp at hp
    subst hp
    simp [spinEnv] at hm
    subst hm
    rfl
  · refine ⟨0, fun _ => 0, { name := "m", id := 0, a := some ⟨2, [[(1, 1)], []]⟩ }, ⟨_, List.mem_singleton_self _, rfl, ?_⟩, rfl, ?_,
      spin_forever⟩
    · intro i hi
      have : i = 0 ∨ i = 1 := by
        have : i < 2 := hi
        omega
      rcases this with rfl | rfl <;> simp
    · intro lc hlc; simp at hlc

end Hylaa
