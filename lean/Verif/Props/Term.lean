import Verif.Proofs.Term7
import Verif.Props.Bound
import Verif.Props.Concrete

/-! # C34: the analysis terminates, deaggregation included -/

set_option linter.unusedSectionVars false

namespace Hylaa
open Spec
variable {K : Type} [Field K] [LinearOrder K] [IsStrictOrderedRing K]

theorem finished_stays {E : Env K} : ∀ (n : ℕ) {σ σ' : Core K}, σ.isFinished E = true →
    runSteps E n σ = .ok σ' → σ' = σ
  | 0, σ, σ', _, h => by cases h; rfl
  | n + 1, σ, σ', hf, h => by
    simp only [runSteps, bind_ok] at h
    obtain ⟨σ1, h1, h2⟩ := h
    unfold doStep at h1
    rw [if_pos hf] at h1
    cases h1
    exact finished_stays n hf h2

theorem runSteps_cut {E : Env K} : ∀ (n m : ℕ) {σ σ' : Core K}, runSteps E (n + m) σ = .ok σ' →
    ∃ τ, runSteps E n σ = .ok τ ∧ runSteps E m τ = .ok σ'
  | 0, m, σ, σ', h => ⟨σ, rfl, by rwa [Nat.zero_add] at h⟩
  | n + 1, m, σ, σ', h => by
    rw [Nat.add_right_comm] at h
    simp only [runSteps, bind_ok] at h
    obtain ⟨σ1, h1, h2⟩ := h
    obtain ⟨τ, a, b⟩ := runSteps_cut n m h2
    exact ⟨τ, by simp only [runSteps, bind_ok]; exact ⟨σ1, h1, a⟩, b⟩

/-- **Termination** with any strategy that aggregates only operations with the same path, deaggregating or
not: for every automaton, solver and initial sets there is a number of rounds after which the analysis is
finished (or an exception was raised), and then it stays finished.  Urgent transitions need a rank that
decreases along transitions (no cycle in zero time). -/
theorem C34_terminates_one_path {E : Env K} (hs : ∀ s, E.set.strat = some s → s.samePath = true)
    (hu : E.set.urgent = true → ∃ rank : ℕ → ℕ, ∀ (i : ℕ) (l : List ℕ), E.ha.out[i]? = some l → ∀ ti ∈ l,
      ∀ t : Tr K, E.ha.trans[ti]? = some t → rank t.dst < rank i)
    {init : List (SS K)} {σ0 : Core K} (h0 : setup E init = .ok σ0) :
    ∃ n, ∀ m, n ≤ m → ∀ σ, runSteps E m σ0 = .ok σ → σ.isFinished E = true := by
  letI : JumpAt K := ⟨fun _ _ => True⟩
  obtain ⟨ρ, hρ⟩ : ∃ ρ, Ranked E ρ := by
    by_cases hur : E.set.urgent = true
    · obtain ⟨ρ, h⟩ := hu hur
      exact ⟨ρ, fun _ => h⟩
    · exact ⟨fun _ => 0, fun h => absurd h hur⟩
  obtain ⟨g, hI⟩ := (setup_start h0).ti (E := E) ρ
  obtain ⟨n, hn⟩ := TI.terminates hρ hs _ hI rfl
  refine ⟨n, fun m hm σ h => ?_⟩
  obtain ⟨k, rfl⟩ := Nat.exists_eq_add_of_le hm
  obtain ⟨τ, a, b⟩ := runSteps_cut n k h
  have := hn τ a
  rw [finished_stays k this b]
  exact this

/-- **Termination** of the analysis.  Missing: deaggregation together with aggregation across paths
(`require_same_path=False`), where deaggregation is not sound either. -/
theorem C34_terminates_all_partial {E : Env K} (hs : E.SamePath)
    (hu : E.set.urgent = true → ∃ (rank : ℕ → ℕ) (R : ℕ), (∀ i, rank i ≤ R) ∧
      ∀ (i : ℕ) (l : List ℕ), E.ha.out[i]? = some l → ∀ ti ∈ l, ∀ t : Tr K, E.ha.trans[ti]? = some t →
        rank t.dst < rank i)
    {init : List (SS K)} (hl : ∀ st ∈ init, st.steps = (0, 0)) {σ0 : Core K} (h0 : setup E init = .ok σ0) :
    ∃ n, ∀ m, n ≤ m → ∀ σ, runSteps E m σ0 = .ok σ → σ.isFinished E = true := by
  by_cases hd : E.deaggOn
  · obtain ⟨s, h1, h2⟩ := hd
    refine C34_terminates_one_path (fun s' h => hs s' h ?_) (fun h => ?_) h0
    · rw [h1] at h; cases h; exact h2
    · obtain ⟨r, -, -, h3⟩ := hu h
      exact ⟨r, h3⟩
  · obtain ⟨n, hn⟩ := C34_terminates_partial hd hu hl h0
    refine ⟨n, fun m hm σ h => ?_⟩
    obtain ⟨k, rfl⟩ := Nat.exists_eq_add_of_le hm
    obtain ⟨τ, a, b⟩ := runSteps_cut n k h
    have := hn τ a
    rw [finished_stays k this b]
    exact this

/-- The hypotheses are met by the run `exRunD_safe`, which splits two nodes. -/
example {init : List (SS ℚ)} {σ0 : Core ℚ}
    (h0 : setup (exEnv 4 (7 / 5) (some exDeagg) (8 / 5)) init = .ok σ0) :
    ∃ n, ∀ m, n ≤ m → ∀ σ, runSteps (exEnv 4 (7 / 5) (some exDeagg) (8 / 5)) m σ0 = .ok σ →
      σ.isFinished (exEnv 4 (7 / 5) (some exDeagg) (8 / 5)) = true :=
  C34_terminates_one_path (fun s h => by cases h; rfl) (fun h => by cases h) h0

/-! ### The time bound is false with deaggregation -/

set_option maxRecDepth 100000 in
theorem exLate_steps : okAnd (analyse (exEnv 4 (8 / 5) (some exDeagg) (17 / 10) (-2 / 3) 0)
    [(0, [(0, 0), (1, 1)])] 14) (fun σ => σ.states.any fun st => decide (4 < st.steps.1)) = true := by
  decide +kernel

/-- **C34, negative.** With deaggregation a state set may be propagated beyond `num_steps`, along every
path: its smallest number of steps exceeds the bound. -/
theorem C34_time_bound_false_with_deaggregation : ∃ (E : Env ℚ) (l : List (ℕ × List (ℚ × ℚ))) (n : ℕ)
    (σ : Core ℚ), E.Ok ∧ E.SamePath ∧ analyse E l n = .ok σ ∧ ∃ st ∈ σ.states, E.set.numSteps < st.steps.1 := by
  obtain ⟨σ, h, hσ⟩ := okAnd_ok exLate_steps
  rw [List.any_eq_true] at hσ
  obtain ⟨st, h1, h2⟩ := hσ
  refine ⟨_, _, _, σ, exEnv_ok _ _ _ _ le_rfl, ?_, h, st, h1, by simpa [exEnv] using h2⟩
  intro s h1 _
  cases h1
  rfl

end Hylaa
