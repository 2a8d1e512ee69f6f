import Verif.Props.LggEx

/-!
# C57 after a transition

`compute_radius_inf` of a set entered by a transition reads the columns of the *previous* mode's initial
states (C18), so alpha is wrong and the set of the LGG model misses states.
-/

set_option linter.unusedSectionVars false

namespace Hylaa
open Spec

/-- Mode 0: one variable `z' = 0`; transition 0 leads to `(0, 0, 100 z)`.  Mode 1: `x' = y, y' = z, z' = 0`;
transition 1 leads to the error mode 2 when `x - 1.5 y ≤ -110`. -/
def rtHA (K : Type) [Field K] : HA K :=
  { modes := [{ name := "wait", id := 0, a := some ⟨1, [[]]⟩ },
      { name := "go", id := 1, a := some ⟨3, [[(1, 1)], [(2, 1)], []]⟩ }, { name := "bad", id := 2 }]
    out := [[0], [1], []]
    trans := [{ src := 0, dst := 1, index := 0, guard := some (⟨1, []⟩, []), reset := some ⟨1, [[], [], [(0, 100)]]⟩ },
      { src := 1, dst := 2, index := 0, guard := some (⟨3, [[(0, 1), (1, -3 / 2)]]⟩, [-110]) }] }

/-- `e^{k A}` for `A` of mode 0 (`n = 1`) and mode 1 (`n = 3`). -/
def rtDyn (n : ℕ) : Dyn ℚ :=
  ⟨n, fun k => ⟨n, n, fun i j => if i = j then 1 else if j = i + 1 then k else
    if j = i + 2 then k ^ 2 / 2 else 0⟩, none, none⟩

/-- Two steps of length 1, LGG model. -/
def rtEnv : Env ℚ :=
  { exEnv 1 0 none with
    ha := rtHA ℚ, dyn := fun i => rtDyn (if i = 0 then 1 else 3), approx := .lgg
    set := { numSteps := 2, makeCe := false, strat := none }
    lgg := ⟨fun x => if x = 1 then 27183 / 10000 else 0, 1, 1 / 10 ^ 7, 10 ^ 5⟩ }

/-- **C57 is false after a transition**: the analysis from `z = 1` finishes with "System is safe" although the
transition (taken after one step) leads to `(0, 0, 100)` and the motion of mode 1 from there satisfies the guard of
the error mode at time 1.5, in the interval of the second step. -/
theorem C57_missed_after_transition :
    (∃ σ, analyse rtEnv [(0, [(1, 1)])] 5 = .ok σ ∧ σ.isFinished rtEnv = true ∧ σ.verdict = .safe) ∧
    ∃ (m : Mode ℝ) (a : Csr ℝ) (t t' : Tr ℝ) (x : ℕ → ℝ) (w u : ℝ → ℕ → ℝ),
      Box [((1 : ℝ), 1)] x ∧ (rtHA ℝ).trans = [t, t'] ∧ t.src = 0 ∧ t.dst = 1 ∧ GuardHolds t x ∧
      ResetTo 1 t x (w 0) ∧ (rtHA ℝ).modes[1]? = some m ∧ m.a = some a ∧ Moves m a 2 w u ∧
      t'.src = 1 ∧ t'.dst = 2 ∧ GuardHolds t' (w (3 / 2)) := by
  refine ⟨?_, _, _, _, _, fun _ => 1,
    fun t i => if i = 0 then 50 * t ^ 2 else if i = 1 then 100 * t else 100, fun _ _ => 0, ?_, rfl, rfl, rfl, ?_, ?_, rfl, rfl,
    ?_, rfl, rfl, ?_⟩
  · have key : okAnd (analyse rtEnv [(0, [(1, 1)])] 5)
        (fun σ => σ.isFinished rtEnv && decide (σ.verdict = .safe)) = true := by
      set_option maxRecDepth 100000 in decide +kernel
    obtain ⟨σ, h1, h2⟩ := okAnd_ok key
    simp only [Bool.and_eq_true, decide_eq_true_eq] at h2
    exact ⟨σ, h1, h2⟩
  · intro i hi
    have : i < 1 := hi
    interval_cases i
    simp
  · exact ⟨_, rfl, fun i hi => by simp at hi⟩
  · refine ⟨fun _ => 0, by simp, fun i hi => ?_⟩
    have : i < 3 := hi
    interval_cases i <;> simp [Csr.row, dot]
  · have hd : ∀ t : ℝ, ∀ i < 3, HasDerivAt
        (fun s : ℝ => if i = 0 then 50 * s ^ 2 else if i = 1 then 100 * s else 100)
        (dot ((⟨3, [[(1, 1)], [(2, 1)], []]⟩ : Csr ℝ).row i)
          (fun i => if i = 0 then 50 * t ^ 2 else if i = 1 then 100 * t else 100)) t := by
      intro t i hi
      have hid : HasDerivAt (fun s : ℝ => s) 1 t := hasDerivAt_id t
      interval_cases i
      · have h2 : HasDerivAt (fun s : ℝ => 50 * s ^ 2) (50 * (2 * t ^ 1 * 1)) t := by
          simpa using (hid.pow 2).const_mul (50 : ℝ)
        have e : 50 * (2 * t ^ 1 * 1) = 100 * t := by ring
        rw [e] at h2
        simpa [Csr.row, dot] using h2
      · simpa [Csr.row, dot] using hid.const_mul (100 : ℝ)
      · simpa [Csr.row, dot] using hasDerivAt_const t (100 : ℝ)
    refine ⟨fun i hi => ?_, ⟨∅, by simp, fun t _ i hi => ?_⟩, fun t _ => ?_, fun inp h => by simp at h⟩
    · exact fun t _ => (hd t i hi).continuousAt.continuousWithinAt
    · simpa [inputAt] using hd t i hi
    · simp [Admissible]
  · refine ⟨_, rfl, fun i hi => ?_⟩
    have : i < 1 := hi
    interval_cases i
    simp [Csr.row, dot]
    norm_num

end Hylaa
