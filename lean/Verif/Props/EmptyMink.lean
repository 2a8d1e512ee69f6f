import Verif.Props.Concrete

/-!
# An error behind a reset with no result (finding 29)

The reset of the transition into the error mode adds a vector from an empty set, so no run can take
it.  The error mode is reported all the same: `C33_boxes_partial` needs `MinkOk`.  `set_reset` refuses such
a reset (`C26_shapes`), so scripts meet `MinkOk` (`Env.Of.minkOk`) unless they assign the attributes directly.
-/

set_option linter.unusedSectionVars false

namespace Hylaa
open Spec

/-- `exRunHA` with a reset `x := x + (w, 0)`, `1 ≤ w ≤ 0`, on the transition into the error mode. -/
def noResultHA (lim : ℚ) : HA ℚ :=
  let ha := exRunHA lim
  { ha with
    trans := [{ src := 0, dst := 1, index := 0, guard := some (⟨2, [[(0, -1)]]⟩, [-2]) },
      { src := 1, dst := 2, index := 0, guard := some (⟨2, [[(0, -1)], [(0, 1)]]⟩, [-lim, 1000])
        reset := some ⟨2, [[(0, 1)], [(1, 1)]]⟩
        mink := some ⟨1, [[(0, 1)], []]⟩
        minkC := some ⟨1, [[(0, 1)], [(0, -1)]]⟩
        minkRhs := some [0, -1] }] }

def noResultEnv (steps : ℕ) (lim : ℚ) : Env ℚ :=
  { exEnv steps lim none with ha := noResultHA lim }

theorem noResult_empty (w : ℕ → ℚ) : ¬ (⟨1, [[(0, 1)], [(0, -1)]]⟩ : Csr ℚ).le w [0, -1] := by
  intro h
  have h0 := h 0 (by simp [Csr.nrows])
  have h1 := h 1 (by simp [Csr.nrows])
  simp [Csr.row, dot] at h0 h1
  linarith

theorem noResult_run : okAnd (analyse (noResultEnv 4 (3 / 2)) [(0, [(0, 0), (1, 1)])] 15) (fun σ =>
    σ.isFinished (noResultEnv 4 (3 / 2)) && decide (σ.verdict = .reachable)) = true := by
  decide +kernel

theorem noResultEnv_ok (steps : ℕ) (lim : ℚ) : (noResultEnv steps lim).Ok where
  noApprox := rfl
  honest := Simplex.honest _
  tol := by norm_num [noResultEnv, exEnv]
  dynFor := (exEnv_ok steps lim none 1000 (s := -1) (tol := 1 / 1000000)).dynFor
  plain := (exEnv_ok steps lim none 1000 (s := -1) (tol := 1 / 1000000)).plain
  rows := (exEnv_ok steps lim none 1000 (s := -1) (tol := 1 / 1000000)).rows
  trs := by
    intro i m l ti t hm he hl hti ht
    have hcase : ti = 0 ∨ ti = 1 := by
      have : ti < 2 := lt_of_getElem? ht
      omega
    rcases hcase with rfl | rfl <;> simp [noResultEnv, noResultHA] at ht <;> subst ht
    · exact ⟨fun g hg => by
          cases hg
          exact ⟨⟨rfl, by simp [Csr.WF], by simp⟩, by simp [noResultEnv, exEnv, exDyn]⟩,
        by simp, by simp, by simp, by simp, by simp⟩
    · exact ⟨fun g hg => by
          cases hg
          exact ⟨⟨rfl, by simp [Csr.WF], by simp⟩, by simp [noResultEnv, exEnv, exDyn]⟩,
        by simp, by simp [Csr.WF], by simp [Csr.WF], by simp [Csr.WF], by simp⟩
  tt := by
    intro _ i m l ti t g _ _ _ _ ht htt
    have hcase : ti = 0 ∨ ti = 1 := by
      have : ti < 2 := lt_of_getElem? ht
      omega
    rcases hcase with rfl | rfl <;> simp [noResultEnv, noResultHA] at ht <;> subst ht <;> cases htt
  zero := (exEnv_ok steps lim none 1000 (s := -1) (tol := 1 / 1000000)).zero

/-- **C33, why `MinkOk` is assumed.** "Error modes are reachable" would be reported although no run enters an
error mode, if the transition leading there had a reset with no result, its second summand being from an empty
set (which `set_reset` refuses). -/
theorem C33_needs_minkOk : ∃ (E : Env ℚ) (l : List (ℕ × List (ℚ × ℚ))) (n : ℕ) (σ : Core ℚ),
    E.Ok ∧ E.NoTt ∧ ¬ E.deaggOn ∧
    (∀ p ∈ l, ∀ m : Mode ℚ, E.ha.modes[p.1]? = some m → m.isError = false) ∧
    analyse E l n = .ok σ ∧ σ.isFinished E = true ∧ σ.verdict = .reachable ∧
    ∀ ε i x k m, E.hyb.Reach ε (BoxInit l) i x k → E.ha.modes[i]? = some m → m.isError = false := by
  have hl : ∀ p ∈ [((0 : ℕ), [((0 : ℚ), (0 : ℚ)), (1, 1)])], ∀ m : Mode ℚ,
      (noResultHA (3 / 2)).modes[p.1]? = some m → m.isError = false := by
    intro p hp m hm
    simp at hp
    subst hp
    simp [noResultHA, exRunHA] at hm
    subst hm
    rfl
  obtain ⟨σ, h, hσ⟩ := okAnd_ok noResult_run
  simp only [Bool.and_eq_true, decide_eq_true_eq] at hσ
  refine ⟨noResultEnv 4 (3 / 2), _, _, σ, noResultEnv_ok _ _, ?_, ?_, hl, h, hσ.1, hσ.2, ?_⟩
  · intro t ht _
    simp [noResultEnv, noResultHA] at ht
    rcases ht with rfl | rfl <;> rfl
  · rintro ⟨s, h1, -⟩
    cases h1
  · intro ε i x k m hr hm
    cases hr with
    | init h0 h1 h2 =>
      obtain ⟨p, hp, rfl, -⟩ := h0
      exact hl p hp m hm
    | jump h0 hj hn =>
      obtain ⟨m', t, z, l, -, -, -, -, -, -, ht, -, ⟨w, hw, -⟩, rfl, -⟩ := hj
      rename_i ti
      have ht : (noResultHA (3 / 2)).trans[ti]? = some t := ht
      have hm : (noResultHA (3 / 2)).modes[_]? = some m := hm
      have hcase : ti = 0 ∨ ti = 1 := by
        have : ti < 2 := lt_of_getElem? ht
        omega
      rcases hcase with rfl | rfl <;> simp [noResultHA] at ht <;> subst ht
      · simp [noResultHA, exRunHA] at hm
        subst hm
        rfl
      · exact absurd (hw _ rfl) (noResult_empty w)

end Hylaa
