import Verif.Spec.Ode
import Verif.Model.Automaton
import Verif.Proofs.Dot
import Mathlib.Analysis.Calculus.MeanValue
import Mathlib.Analysis.Calculus.Deriv.Add
import Mathlib.Analysis.Calculus.Deriv.Mul
import Mathlib.Analysis.Calculus.Deriv.Pow

/-!
# C29: time-triggered variables evolve affinely
-/

set_option linter.unusedSectionVars false

namespace Hylaa
open Set

open Spec

theorem constantVars_const {a : Csr ℝ} {T : ℝ} {x : ℝ → ℕ → ℝ} (h : Solves a (fun _ _ => 0) T x)
    {i : ℕ} (hi : i ∈ constantVars a) : ∀ t ∈ Icc 0 T, x t i = x 0 i := by
  simp only [constantVars, List.mem_filter, List.mem_range, List.isEmpty_iff] at hi
  refine constant_of_has_deriv_right_zero (h.cont i hi.1) fun t ht => ?_
  have := h.deriv i hi.1 t ht
  rw [hi.2] at this
  simpa [dot] using this

/-- **C29.** Along every solution of `x' = A x` on `[0, T]`, a variable the library classifies as
time-triggered is an affine function of time, with a slope that only depends on the initial
point. -/
theorem C29_tt_affine {a : Csr ℝ} {i : ℕ} (hi : i ∈ getTtVars a) {T : ℝ} {x : ℝ → ℕ → ℝ}
    (h : Solves a (fun _ _ => 0) T x) :
    ∀ t ∈ Icc 0 T, x t i = x 0 i + dot (a.row i) (x 0) * t := by
  simp only [getTtVars, List.mem_filter, List.mem_range, Bool.and_eq_true, List.all_eq_true,
    Bool.or_eq_true, decide_eq_true_eq, List.contains_iff_mem] at hi
  obtain ⟨hlt, -, hall⟩ := hi
  have hslope : ∀ t ∈ Icc 0 T, dot (a.row i) (x t) = dot (a.row i) (x 0) := by
    intro t ht
    unfold dot
    congr 1
    apply List.map_congr_left
    intro p hp
    rcases hall p hp with h0 | hc
    · rw [h0]; ring
    · rw [constantVars_const h hc t ht]
  have key := constant_of_has_deriv_right_zero (f := fun t => x t i - dot (a.row i) (x 0) * t)
    (a := 0) (b := T) ((h.cont i hlt).sub (by fun_prop)) (fun t ht => by
      have h1 := h.deriv i hlt t ht
      have h2 : HasDerivWithinAt (fun s : ℝ => dot (a.row i) (x 0) * s) (dot (a.row i) (x 0)) (Ici t)
          t := by
        simpa using (hasDerivWithinAt_id t (Ici t)).const_mul (dot (a.row i) (x 0))
      have h3 := h1.sub h2
      rw [hslope t ⟨ht.1, ht.2.le⟩, add_zero, sub_self] at h3
      exact h3)
  intro t ht
  have := key t ht
  linarith

/-- Non-vacuity: in `x' = 3 y, y' = 0` the variable `x` is time-triggered, and `y` is not. -/
example : getTtVars (⟨2, [[(1, 3)], []]⟩ : Csr ℝ) = [0] ∧
    Solves (⟨2, [[(1, 3)], []]⟩ : Csr ℝ) (fun _ _ => 0) 10 (fun t i => if i = 0 then 6 * t else 2) := by
  refine ⟨?_, ⟨fun i hi => ?_, fun i hi t _ => ?_⟩⟩
  · norm_num [getTtVars, constantVars, Csr.nrows, Csr.row, List.range_succ]
  · have : i = 0 ∨ i = 1 := by simp [Csr.nrows] at hi; omega
    rcases this with rfl | rfl
    · simp; fun_prop
    · simp; fun_prop
  · have : i = 0 ∨ i = 1 := by simp [Csr.nrows] at hi; omega
    rcases this with rfl | rfl
    · have := (hasDerivWithinAt_id t (Ici t)).const_mul (6 : ℝ)
      norm_num [Csr.row, dot] at this ⊢
      exact this
    · norm_num [Csr.row, dot]
      exact hasDerivWithinAt_const _ _ _

/-- Finding: the classification looks at the `A` matrix only.  With inputs (here `x' = y + u`,
`y' = 0`, input signal `u(t) = t`) the variable `x` is classified but is not affine. -/
theorem C29_not_affine_with_inputs : ∃ (a : Csr ℝ) (x : ℝ → ℕ → ℝ), 0 ∈ getTtVars a ∧
    Solves a (fun t i => if i = 0 then t else 0) 4 x ∧
    ¬ ∃ c k, ∀ t ∈ Icc (0 : ℝ) 4, x t 0 = c + k * t := by
  refine ⟨⟨2, [[(1, 1)], []]⟩, fun t i => if i = 0 then t ^ 2 / 2 else 0, ?_,
    ⟨fun i hi => ?_, fun i hi t _ => ?_⟩, ?_⟩
  · norm_num [getTtVars, constantVars, Csr.nrows, Csr.row, List.range_succ]
  · by_cases h : i = 0
    · simp [h]; fun_prop
    · simp [h]; fun_prop
  · have : i = 0 ∨ i = 1 := by simp [Csr.nrows] at hi; omega
    rcases this with rfl | rfl
    · have := ((hasDerivAt_pow 2 t).div_const 2).hasDerivWithinAt (s := Ici t)
      norm_num [Csr.row, dot] at this ⊢
      exact this
    · norm_num [Csr.row, dot]
      exact hasDerivWithinAt_const _ _ _
  · rintro ⟨c, k, h⟩
    have h0 := h 0 (by norm_num)
    have h2 := h 2 (by norm_num)
    have h4 := h 4 (by norm_num)
    norm_num at h0 h2 h4
    linarith

end Hylaa
