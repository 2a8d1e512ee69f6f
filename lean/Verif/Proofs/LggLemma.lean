import Verif.Props.TimeElapse
import Mathlib.MeasureTheory.Integral.DivergenceTheorem
import Mathlib.MeasureTheory.Integral.IntervalIntegral.FundThmCalculus
import Mathlib.Analysis.SpecialFunctions.Integrals.Basic

/-!
# The estimates behind the approximation of Le Guernic and Girard

For `w' = A w + v(t)` with `|v| ≤ R` (infinity norm): `w(t)` differs from `e^{tA} w(0) + ∫ v` by at most
`R (e^{t N} - 1 - t N) / N`, and `e^{tA}` from the chord between `1` and `e^{τA}` by at most
`(t/τ) (e^{τ N} - 1 - τ N)`, where `N` is the norm of `A`.
-/

namespace Hylaa
open NormedSpace Set MeasureTheory
open scoped Matrix.Norms.Operator Nat

variable {n : ℕ}

theorem exp_hasSum (A : Matrix (Fin n) (Fin n) ℝ) (t : ℝ) :
    HasSum (fun k : ℕ => ((k ! : ℝ)⁻¹ * t ^ k) • A ^ k) (exp (t • A)) := by
  have h := exp_series_hasSum_exp' (𝕂 := ℝ) (t • A)
  simp only [smul_pow, smul_smul] at h
  exact h

theorem rexp_hasSum (x : ℝ) : HasSum (fun k : ℕ => (k ! : ℝ)⁻¹ * x ^ k) (Real.exp x) := by
  have h := exp_series_hasSum_exp' (𝕂 := ℝ) x
  simp only [smul_eq_mul] at h
  rwa [← Real.exp_eq_exp_ℝ] at h

/-- `‖A^k‖ ≤ ‖A‖^k` for `k ≥ 1`. -/
theorem norm_pow_succ_le (A : Matrix (Fin n) (Fin n) ℝ) (k : ℕ) : ‖A ^ (k + 1)‖ ≤ ‖A‖ ^ (k + 1) :=
  norm_pow_le' A (Nat.succ_pos k)

/-- `‖e^{sA} - 1‖ ≤ e^{s N} - 1`. -/
theorem norm_exp_sub_one (A : Matrix (Fin n) (Fin n) ℝ) {s : ℝ} (hs : 0 ≤ s) :
    ‖exp (s • A) - 1‖ ≤ Real.exp (s * ‖A‖) - 1 := by
  have h1 := (hasSum_nat_add_iff' 1).2 (exp_hasSum A s)
  have h2 := (hasSum_nat_add_iff' 1).2 (rexp_hasSum (s * ‖A‖))
  simp only [Finset.range_one, Finset.sum_singleton, Nat.factorial_zero, Nat.cast_one, inv_one,
    pow_zero, mul_one, one_smul] at h1 h2
  rw [← h1.tsum_eq]
  refine tsum_of_norm_bounded h2 fun k => ?_
  rw [norm_smul, mul_pow, norm_mul, norm_inv, Real.norm_natCast, Real.norm_of_nonneg (pow_nonneg hs _),
    mul_assoc]
  gcongr
  exact norm_pow_succ_le A k

/-- `‖e^{tA} - 1 - (t/τ)(e^{τA} - 1)‖ ≤ (t/τ)(e^{τN} - 1 - τ N)`. -/
theorem norm_exp_chord (A : Matrix (Fin n) (Fin n) ℝ) {t τ : ℝ} (ht : 0 ≤ t) (htt : t ≤ τ) (hτ : 0 < τ) :
    ‖exp (t • A) - 1 - (t / τ) • (exp (τ • A) - 1)‖ ≤
      t / τ * (Real.exp (τ * ‖A‖) - 1 - τ * ‖A‖) := by
  have h1 := (hasSum_nat_add_iff' 2).2 ((exp_hasSum A t).sub ((exp_hasSum A τ).const_smul (t / τ)))
  have h2 := ((hasSum_nat_add_iff' 2).2 (rexp_hasSum (τ * ‖A‖))).mul_left (t / τ)
  simp only [Finset.sum_range_succ, Finset.range_zero, Finset.sum_empty, Nat.factorial_zero,
    Nat.cast_one, inv_one, pow_zero, mul_one, one_smul, Nat.factorial_one, pow_one, one_mul,
    zero_add] at h1 h2
  have e1 : exp (t • A) - (t / τ) • exp (τ • A) - (1 - (t / τ) • (1 : Matrix (Fin n) (Fin n) ℝ) +
      (t • A - (t / τ) • τ • A)) = exp (t • A) - 1 - (t / τ) • (exp (τ • A) - 1) := by
    rw [smul_smul, div_mul_cancel₀ _ hτ.ne', smul_sub]
    abel
  have e2 : Real.exp (τ * ‖A‖) - (1 + τ * ‖A‖) = Real.exp (τ * ‖A‖) - 1 - τ * ‖A‖ := by ring
  rw [e1] at h1
  rw [e2] at h2
  rw [← h1.tsum_eq]
  refine tsum_of_norm_bounded h2 fun k => ?_
  rw [smul_smul, ← sub_smul, norm_smul]
  have hk : ‖((k + 2)! : ℝ)⁻¹ * t ^ (k + 2) - t / τ * (((k + 2)! : ℝ)⁻¹ * τ ^ (k + 2))‖ ≤
      t / τ * (((k + 2)! : ℝ)⁻¹ * τ ^ (k + 2)) := by
    have hf : (0 : ℝ) ≤ ((k + 2)! : ℝ)⁻¹ := by positivity
    have hle : t ^ (k + 2) ≤ t / τ * τ ^ (k + 2) := by
      have : t / τ * τ ^ (k + 2) = t * τ ^ (k + 1) := by
        rw [pow_succ τ (k + 1)]; field_simp
      rw [this, pow_succ' t (k + 1)]
      gcongr
    rw [Real.norm_eq_abs, abs_le]
    have h3 : t / τ * (((k + 2)! : ℝ)⁻¹ * τ ^ (k + 2)) = ((k + 2)! : ℝ)⁻¹ * (t / τ * τ ^ (k + 2)) := by
      ring
    rw [h3]
    have h4 := mul_le_mul_of_nonneg_left hle hf
    have h5 : 0 ≤ ((k + 2)! : ℝ)⁻¹ * t ^ (k + 2) := by positivity
    constructor <;> linarith
  calc _ ≤ t / τ * (((k + 2)! : ℝ)⁻¹ * τ ^ (k + 2)) * ‖A‖ ^ (k + 2) := by
        gcongr
        exact norm_pow_succ_le A (k + 1)
    _ = _ := by rw [mul_pow]; ring

/-- The difference between the solution and `e^{tA} w(0) + ∫ v`. -/
theorem variation_bound (A : Matrix (Fin n) (Fin n) ℝ) {v w : ℝ → Fin n → ℝ} {t R : ℝ} (ht : 0 ≤ t)
    (hvi : ∀ i, IntervalIntegrable (fun s => v s i) volume 0 t)
    (hc : ∀ i, ContinuousOn (fun s => w s i) (Icc 0 t)) {C : Set ℝ} (hC : C.Countable)
    (hd : ∀ s ∈ Ioo 0 t \ C, ∀ i, HasDerivAt (fun s => w s i) (A.mulVec (w s) i + v s i) s)
    (hR : ∀ s ∈ Icc 0 t, ∀ i, |v s i| ≤ R) (i : Fin n) :
    |w t i - (exp (t • A)).mulVec (w 0) i - ∫ s in (0:ℝ)..t, v s i| ≤
      ∫ s in (0:ℝ)..t, (Real.exp ((t - s) * ‖A‖) - 1) * R := by
  have hR0 : 0 ≤ R := (abs_nonneg _).trans (hR 0 ⟨le_refl _, ht⟩ i)
  have hexp : ∀ (i j : Fin n) (s : ℝ), HasDerivAt (fun s => exp ((t - s) • A) i j)
      (-((exp ((t - s) • A) * A) i j)) s := by
    intro i j s
    have h1 := (exp_entry_deriv A i j (t - s)).scomp s ((hasDerivAt_id s).const_sub t)
    simp only [smul_eq_mul, neg_mul, one_mul] at h1
    exact h1
  have hcexp : ∀ i j : Fin n, Continuous fun s => exp ((t - s) • A) i j := fun i j =>
    continuous_iff_continuousAt.2 fun s => (hexp i j s).continuousAt
  have huIcc : uIcc 0 t = Icc 0 t := uIcc_of_le ht
  have hint : IntervalIntegrable (fun s => ∑ j, exp ((t - s) • A) i j * v s j) volume 0 t :=
    by
      have := IntervalIntegrable.sum (Finset.univ : Finset (Fin n))
        (f := fun j s => exp ((t - s) • A) i j * v s j) fun j _ =>
          (hvi j).continuousOn_mul (hcexp i j).continuousOn
      have e : (∑ j, fun s => exp ((t - s) • A) i j * v s j) =
          fun s => ∑ j, exp ((t - s) • A) i j * v s j := by funext s; simp
      rw [e] at this
      exact this
  have hftc := integral_eq_of_hasDerivAt_off_countable
    (fun s => ∑ j, exp ((t - s) • A) i j * w s j) (fun s => ∑ j, exp ((t - s) • A) i j * v s j)
    (a := 0) (b := t) hC
    (by
      rw [huIcc]
      exact continuousOn_finset_sum _ fun j _ => (hcexp i j).continuousOn.mul (hc j))
    (by
      intro s hs
      rw [min_eq_left ht, max_eq_right ht] at hs
      have h1 := HasDerivAt.fun_sum fun j (_ : j ∈ (Finset.univ : Finset (Fin n))) =>
        (hexp i j s).mul (hd s hs j)
      refine HasDerivAt.congr_deriv (f' := _) h1 ?_
      simp only [mul_add]
      rw [Finset.sum_add_distrib]
      rw [Finset.sum_add_distrib]
      have h2 : ∑ j, exp ((t - s) • A) i j * A.mulVec (w s) j =
          ∑ j, (exp ((t - s) • A) * A) i j * w s j := by
        have := congrFun (Matrix.mulVec_mulVec (w s) (exp ((t - s) • A)) A) i
        simpa only [Matrix.mulVec, dotProduct] using this
      rw [h2, ← add_assoc, ← Finset.sum_add_distrib]
      simp [Finset.sum_neg_distrib])
    hint
  have h0 : (exp ((t - t) • A)) = 1 := by simp
  simp only [h0, sub_zero] at hftc
  have h1 : ∑ j, (1 : Matrix (Fin n) (Fin n) ℝ) i j * w t j = w t i := by
    simp [Matrix.one_apply]
  rw [h1] at hftc
  have h2 : w t i - (exp (t • A)).mulVec (w 0) i - ∫ s in (0:ℝ)..t, v s i =
      ∫ s in (0:ℝ)..t, ((exp ((t - s) • A) - 1).mulVec (v s)) i := by
    have : ∀ s, ((exp ((t - s) • A) - 1).mulVec (v s)) i =
        (∑ j, exp ((t - s) • A) i j * v s j) - v s i := by
      intro s
      rw [Matrix.sub_mulVec, Matrix.one_mulVec]
      simp [Matrix.mulVec, dotProduct]
    simp only [this]
    rw [intervalIntegral.integral_sub hint (hvi i), hftc]
    simp [Matrix.mulVec, dotProduct]
  rw [h2, ← Real.norm_eq_abs]
  refine intervalIntegral.norm_integral_le_of_norm_le ht ?_ ?_
  · refine Filter.Eventually.of_forall fun s hs => ?_
    refine (norm_le_pi_norm ((exp ((t - s) • A) - 1).mulVec (v s)) i).trans ?_
    refine (Matrix.linfty_opNorm_mulVec _ _).trans ?_
    refine mul_le_mul (norm_exp_sub_one A (by linarith [hs.2])) ?_ (norm_nonneg _) ?_
    · exact (pi_norm_le_iff_of_nonneg hR0).2 fun j => hR s ⟨hs.1.le, hs.2⟩ j
    · have := Real.add_one_le_exp ((t - s) * ‖A‖)
      have h3 : 0 ≤ (t - s) * ‖A‖ := mul_nonneg (by linarith [hs.2]) (norm_nonneg _)
      linarith
  · exact Continuous.intervalIntegrable (by fun_prop) 0 t

/-- The integral of the bound. -/
theorem variation_integral {N t R : ℝ} (hN : 0 < N) :
    ∫ s in (0:ℝ)..t, (Real.exp ((t - s) * N) - 1) * R = (Real.exp (t * N) - 1 - t * N) * (R / N) := by
  rw [intervalIntegral.integral_mul_const]
  have hd : ∀ s ∈ uIcc 0 t, HasDerivAt (fun s => -(Real.exp ((t - s) * N) / N) - s)
      (Real.exp ((t - s) * N) - 1) s := by
    intro s _
    have h1 := ((hasDerivAt_id s).const_sub t).mul_const N
    have h2 := ((h1.exp).div_const N).neg.sub (hasDerivAt_id s)
    refine h2.congr_deriv ?_
    field_simp
    simp only [id, mul_comm]
  rw [intervalIntegral.integral_eq_sub_of_hasDerivAt hd
    (Continuous.intervalIntegrable (by fun_prop) 0 t)]
  simp only [sub_self, zero_mul, Real.exp_zero, sub_zero]
  field_simp
  ring

/-- `e^{tN} - 1 - tN ≤ (t/τ) (e^{τN} - 1 - τN)`. -/
theorem exp_excess_le {N t τ : ℝ} (ht : 0 ≤ t) (htt : t ≤ τ) (hτ : 0 < τ) :
    Real.exp (t * N) - 1 - t * N ≤ t / τ * (Real.exp (τ * N) - 1 - τ * N) := by
  have h := convexOn_exp.2 (mem_univ (0 : ℝ)) (mem_univ (τ * N))
    (show (0:ℝ) ≤ 1 - t / τ from sub_nonneg.2 ((div_le_one hτ).2 htt)) (show (0:ℝ) ≤ t / τ by positivity) (by ring)
  have e : (1 - t / τ) • (0 : ℝ) + (t / τ) • (τ * N) = t * N := by
    simp only [smul_eq_mul]; field_simp; ring
  rw [e] at h
  simp only [smul_eq_mul, Real.exp_zero] at h
  have e2 : t / τ * (τ * N) = t * N := by field_simp
  nlinarith

end Hylaa
