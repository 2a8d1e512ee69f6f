import Verif.Proofs.CoreReplay3

/-!
# C32: a safe verdict is sound

`setup` followed by any number of rounds of the main loop; if it has finished, the verdict is about
all runs of the automaton (`Spec/Run.lean`).
-/

set_option linter.unusedSectionVars false

namespace Hylaa
open Spec
variable {K : Type} [Field K] [LinearOrder K] [IsStrictOrderedRing K]

/-- An initial set made by the user: `StateSet(lpi, mode)` of a non-error mode, where `lpi` is an
instance just built for that mode (`from_box`, `from_constraints`, … : C01–C03). -/
def UserInit (E : Env K) (st : SS K) : Prop :=
  ∃ m n X, E.ha.modes[st.mode]? = some m ∧ m.isError = false ∧ st.lp.Repr (Rep.ofSet n X) ∧
    st.lp.ObjInv ∧ (E.chullOn → st.lp.NoLo) ∧ SS.make E.T m st.mode st.lp (0, 0) [] true = .ok st

theorem UserInit.ok {E : Env K} (hE : E.Base) {st : SS K} (h : UserInit E st) : InitOk E st := by
  obtain ⟨m, n, X, h1, h2, h3, h4, h5, h6⟩ := h
  obtain ⟨a1, -, -, a4, -⟩ := Repr.entry_ok hE h1 h3 h4 h6
  exact ⟨a1, by rw [a4], ⟨m, h1, h2⟩, h5⟩

/-- No deagg hypotheses: what the "safe" messages say about the error flags. -/
theorem verdict_noFlag {E : Env K} {σ : Core K}
    (hv : σ.verdict = .safe ∨ (σ.verdict = .safeAgg ∧ E.deaggOn ∧ E.set.stopAgg = false)) :
    ¬ Flag E σ := by
  unfold Core.verdict at hv
  rcases hv with hv | ⟨hv, hd, ha⟩
  · rintro (h | ⟨h, -⟩)
    · simp [h] at hv
    · rw [h] at hv
      split at hv <;> simp at hv
  · rintro (h | ⟨h, h1 | h1⟩)
    · simp [h] at hv
    · rw [ha] at h1; cases h1
    · exact h1 hd

/-- **C32 with time-triggered transitions.**  The verdict "System is safe" is sound for the runs that take
their transitions in states satisfying `R` (for example: inside the invariant), if, whenever a
time-triggered transition may be taken, every other state of the set is outside `R` from the next step
on (`TtFalls`, cf. C44), and the flag set by taking a time-triggered transition is consumed by the set it
was raised for (`TtFreshFor`: it is not raised in the last step, nor in a mode left at once — otherwise the
claim is false, `C32_stale_flag_unsound`). -/
theorem C32_safe_verdict_tt_partial {E : Env K} {R : ℕ → (ℕ → K) → Prop} (hE : E.OkOn R) (hsp : E.SamePath)
    {init : List (SS K)} (hi : ∀ st ∈ init, UserInit E st) {σ0 σ : Core K} {n : ℕ}
    (h0 : setup E init = .ok σ0) (hr : runSteps E n σ0 = .ok σ) (hfr : E.NoTt ∨ σ0.TtFreshFor E n)
    (hf : σ.isFinished E = true)
    (hv : σ.verdict = .safe ∨ (σ.verdict = .safeAgg ∧ E.deaggOn ∧ E.set.stopAgg = false)) :
    (E.hybOn R).Safe (InitSet init) := by
  letI : JumpAt K := ⟨R⟩
  have hE' : E.OkJ := hE
  obtain ⟨gh, hI⟩ := setup_spec hE' (fun st hs => (hi st hs).ok hE.toBase) h0
  exact (runSteps_spec hE' hsp n (.inr ⟨gh, .inr (.inl hI)⟩) hfr hr).safe hf (verdict_noFlag hv)

/-- **C32** The verdict "System is safe" is sound, with every aggregation strategy, with or without
deaggregation (which needs `require_same_path`, the default), without time-triggered transitions (for
these see `C32_safe_verdict_tt_partial`).  When deaggregation is on and the analysis
does not stop at aggregated errors, so is the other "safe" message (an error was reached only by
aggregated sets, and all of them were refined). -/
theorem C32_safe_verdict_partial {E : Env K} (hE : E.Ok) (hnt : E.NoTt) (hsp : E.SamePath) {init : List (SS K)}
    (hi : ∀ st ∈ init, UserInit E st) {σ0 σ : Core K} {n : ℕ} (h0 : setup E init = .ok σ0)
    (hr : runSteps E n σ0 = .ok σ) (hf : σ.isFinished E = true)
    (hv : σ.verdict = .safe ∨ (σ.verdict = .safeAgg ∧ E.deaggOn ∧ E.set.stopAgg = false)) :
    E.hyb.Safe (InitSet init) :=
  C32_safe_verdict_tt_partial hE hsp hi h0 hr (.inl hnt) hf hv

end Hylaa
