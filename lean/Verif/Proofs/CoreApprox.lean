import Verif.Proofs.CoreInv
import Verif.Model.Approx

/-! `apply_approx_model` in a run, whatever the solver answers. -/

set_option linter.unusedSectionVars false

namespace Hylaa
variable {K : Type} [Field K] [LinearOrder K] [IsStrictOrderedRing K]

theorem applyApprox_like {S : Solver K} {T : Tols K} {c : LggCfg K} {d : Dyn K} {m : Mode K} {am : ApproxModel}
    {te te' : Option (TE K)} {st st' : SS K} (h : st.applyApprox S T c d m am te = .ok (te', st')) :
    st.stepIn = 0 ∧ ∃ lp β, st' = { st with lp := lp, lggBeta := β } := by
  simp only [SS.applyApprox, bind_ok, assert_ok] at h
  obtain ⟨_, h0, h⟩ := h
  refine ⟨h0, ?_⟩
  split at h
  · simp only [SS.approxChull, bind_ok, pure_ok, Prod.mk.injEq] at h
    obtain ⟨one, -, g, -, s, -, s', -, lp, -, -, rfl⟩ := h
    exact ⟨_, st.lggBeta, rfl⟩
  · simp only [SS.approxLgg, bind_ok, needSome_ok] at h
    obtain ⟨a, -, one, -, g, -, s, -, r, -, rx, -, q, -, ms, -, lp, -, h⟩ := h
    unfold SS.lggBetaPart at h
    split at h
    · simp only [bind_ok, assert_ok, pure_ok, Prod.mk.injEq] at h
      obtain ⟨_, -, _, -, lp', -, te2, -, -, rfl⟩ := h
      exact ⟨_, _, rfl⟩
    · cases h; exact ⟨_, st.lggBeta, rfl⟩
  · cases h; exact ⟨st.lp, st.lggBeta, rfl⟩
  · cases h; exact ⟨st.lp, st.lggBeta, rfl⟩

/-- What applying the approximation model does, whatever the solver answers. -/
theorem approxCur_eq {E : Env K} {σ σ' : Core K} (h : approxCur E σ = .ok σ') :
    ∃ c st lp β te, σ.curState = some c ∧ σ.states[c.2]? = some st ∧ st.stepIn = 0 ∧
      σ' = { σ.setState c.2 { st with lp := lp, lggBeta := β } with te := te } := by
  simp only [approxCur, bind_ok, needSome_ok, pure_ok] at h
  obtain ⟨c, hc, st, hst, m, -, ⟨te, st'⟩, hs, rfl⟩ := h
  obtain ⟨h0, lp, β, rfl⟩ := applyApprox_like hs
  exact ⟨c, st, lp, β, _, hc, hst, h0, rfl⟩

theorem approxCur_none {E : Env K} (he : E.approx = .none) {σ σ' : Core K} (h : approxCur E σ = .ok σ') :
    σ' = σ := by
  simp only [approxCur, bind_ok, needSome_ok, pure_ok] at h
  obtain ⟨c, hc, st, hst, m, -, ⟨te, st'⟩, hs, rfl⟩ := h
  rw [he] at hs
  simp only [SS.applyApprox, bind_ok, assert_ok] at hs
  obtain ⟨_, -, hs⟩ := hs
  cases hs
  have : σ.states.set c.2 st = σ.states := List.ext_getElem? fun k => by
    rw [List.getElem?_set]
    split
    · rename_i hk; subst hk
      rw [hst]; simp [lt_of_getElem? hst]
    · rfl
  show { σ.setState c.2 st with te := Function.update σ.te st.mode (σ.te st.mode) } = σ
  unfold Core.setState
  rw [this, Function.update_eq_self]

end Hylaa
