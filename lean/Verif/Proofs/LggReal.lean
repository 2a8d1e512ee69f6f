import Verif.Proofs.LggLemma
import Verif.Proofs.ApproxStep
import Verif.Props.Reach

/-! Trajectories with time-varying inputs and the constants of the LGG model. -/

set_option linter.unusedSectionVars false

namespace Hylaa
open Spec NormedSpace Set MeasureTheory
open scoped Matrix.Norms.Operator

theorem aNorm_eq {a : Csr ℝ} (hsq : a.ncols = a.nrows) : aNorm a = ‖aMat a‖ := by
  have key : ∀ (l : List ℕ) (f : ℕ → ℝ) (b : ℝ), 0 ≤ b → ((l.map f).foldr max 0 ≤ b ↔ ∀ i ∈ l, f i ≤ b) := by
    intro l f b hb
    induction l with
    | nil => simpa using hb
    | cons i l ih => simp [ih]
  have key2 : ∀ (n : ℕ) (f : ℕ → ℝ), ((List.range n).map f).sum = ∑ c ∈ Finset.range n, f c := by
    intro n f
    induction n with
    | zero => simp
    | succ n ih => rw [List.range_succ, Finset.sum_range_succ, ← ih]; simp
  have hrow : ∀ i : Fin a.nrows, ∑ j, ‖aMat a i j‖ =
      ((List.range a.ncols).map fun j => |coefAt (a.row i) j|).sum := by
    intro i
    rw [key2, hsq, Finset.sum_range]
    rfl
  have h0 : 0 ≤ aNorm a := by
    unfold aNorm
    induction (List.range a.nrows) with
    | nil => simp
    | cons i l ih => simp only [List.map_cons, List.foldr_cons]; exact ih.trans (le_max_right _ _)
  apply le_antisymm
  · rw [aNorm, key _ _ _ (norm_nonneg _)]
    intro i hi
    have hi := List.mem_range.1 hi
    have := hrow ⟨i, hi⟩
    rw [← this]
    rw [Matrix.linfty_opNorm_def]
    have h2 := Finset.le_sup (f := fun i : Fin a.nrows => ∑ j, ‖aMat a i j‖₊) (Finset.mem_univ ⟨i, hi⟩)
    have h3 : ((∑ j, ‖aMat a ⟨i, hi⟩ j‖₊ : NNReal) : ℝ) ≤ _ := NNReal.coe_le_coe.2 h2
    simpa using h3
  · rw [Matrix.linfty_opNorm_def]
    have h1 : (Finset.univ.sup fun i : Fin a.nrows => ∑ j, ‖aMat a i j‖₊) ≤ ⟨aNorm a, h0⟩ := by
      refine Finset.sup_le fun i _ => ?_
      refine NNReal.coe_le_coe.1 ?_
      have := (key (List.range a.nrows) (fun i => ((List.range a.ncols).map fun j => |coefAt (a.row i) j|).sum)
        (aNorm a) h0).1 (le_refl _) i (List.mem_range.2 i.2)
      rw [← hrow] at this
      rw [NNReal.coe_sum]
      exact this
    exact NNReal.coe_le_coe.2 h1

variable {m : Mode ℝ} {a : Csr ℝ}

theorem wf_row {b : Csr ℝ} (h : b.WF) (i : ℕ) : ∀ p ∈ b.row i, p.1 < b.ncols := by
  intro p hp
  unfold Csr.row at hp
  by_cases hi : i < b.rows.length
  · rw [List.getD_eq_getElem?_getD, List.getElem?_eq_getElem hi] at hp
    exact h _ (List.getElem_mem hi) p hp
  · rw [List.getD_eq_getElem?_getD, List.getElem?_eq_none (by omega)] at hp
    simp at hp

theorem dot_eq_mulVec (ha : a.WF) (hsq : a.ncols = a.nrows) (x : ℕ → ℝ) (i : Fin a.nrows) :
    dot (a.row i) x = (aMat a).mulVec (fun j => x j) i := by
  rw [dot_eq_sum_coefAt (n := a.nrows) fun p hp => by rw [← hsq]; exact wf_row ha i p hp, Finset.sum_range]
  rfl

/-- One stretch of a trajectory, compared with a constant input. -/
theorem window (hma : ModeReal m a) {T : ℝ} {w u : ℝ → ℕ → ℝ} (h : Moves m a T w u) {s0 t R : ℝ} (h0 : 0 ≤ s0)
    (ht : 0 ≤ t) (hT : s0 + t ≤ T) (hR : ∀ u, Admissible m u → ∀ i < a.nrows, |inputAt m u i| ≤ R) :
    ∃ v, Admissible m v ∧ ∀ i (hi : i < a.nrows),
      |w (s0 + t) i - (exp (t • aMat a)).mulVec (fun j => w s0 j) ⟨i, hi⟩ - t * inputAt m v i| ≤
        ∫ s in (0:ℝ)..t, (Real.exp ((t - s) * ‖aMat a‖) - 1) * R := by
  obtain ⟨C, hC, hd⟩ := h.deriv
  rcases ht.eq_or_lt with rfl | htp
  · refine ⟨u s0, h.adm s0 ⟨h0, by linarith⟩, fun i hi => ?_⟩
    simp
  have hui : ∀ inp, m.inputs = some inp → ∀ c < inp.b.ncols,
      IntervalIntegrable (fun s => u (s0 + s) c) volume 0 t := by
    intro inp hi c hc
    have h1 := (h.int inp hi c hc).mono_set (c := s0) (d := s0 + t) (by
      rw [uIcc_of_le (by linarith), uIcc_of_le (by linarith)]
      exact Icc_subset_Icc h0 hT)
    have h2 := h1.comp_add_left s0
    simp only [sub_self, add_sub_cancel_left] at h2
    exact h2
  have hsum : ∀ inp, m.inputs = some inp → ∀ v i, inputAt m v i =
      ∑ c ∈ Finset.range inp.b.ncols, coefAt (inp.b.row i) c * v c := by
    intro inp hi v i
    simp only [inputAt, hi]
    exact dot_eq_sum_coefAt (wf_row (hma.inp inp hi).2 i) v
  have hvi : ∀ i, IntervalIntegrable (fun s => inputAt m (u (s0 + s)) i) volume 0 t := by
    intro i
    cases hi : m.inputs with
    | none => simp only [inputAt, hi]; exact intervalIntegrable_const
    | some inp =>
      simp only [hsum inp hi]
      have := IntervalIntegrable.sum (Finset.range inp.b.ncols)
        (f := fun c s => coefAt (inp.b.row i) c * u (s0 + s) c) fun c hc =>
          (hui inp hi c (Finset.mem_range.1 hc)).const_mul _
      have e : (∑ c ∈ Finset.range inp.b.ncols, fun s => coefAt (inp.b.row i) c * u (s0 + s) c) =
          fun s => ∑ c ∈ Finset.range inp.b.ncols, coefAt (inp.b.row i) c * u (s0 + s) c := by
        funext s; simp
      rw [e] at this
      exact this
  have hadm : ∀ s ∈ Icc 0 t, Admissible m (u (s0 + s)) := fun s hs =>
    h.adm _ ⟨by linarith [hs.1], by linarith [hs.2]⟩
  have hlin : ∀ inp, m.inputs = some inp → ∀ f : ℕ → ℝ,
      ∑ c ∈ Finset.range inp.b.ncols, f c * (t⁻¹ * ∫ s in (0:ℝ)..t, u (s0 + s) c) =
      t⁻¹ * ∫ s in (0:ℝ)..t, ∑ c ∈ Finset.range inp.b.ncols, f c * u (s0 + s) c := by
    intro inp hi f
    rw [intervalIntegral.integral_finset_sum fun c hc => (hui inp hi c (Finset.mem_range.1 hc)).const_mul _,
      Finset.mul_sum]
    refine Finset.sum_congr rfl fun c _ => ?_
    rw [intervalIntegral.integral_const_mul]
    ring
  refine ⟨fun c => t⁻¹ * ∫ s in (0:ℝ)..t, u (s0 + s) c, ?_, fun i hi => ?_⟩
  · intro inp hi k hk
    rw [hlin inp hi]
    have hint : IntervalIntegrable (fun s => ∑ c ∈ Finset.range inp.b.ncols,
        coefAt (inp.uCsc.cols.getD c []) k * u (s0 + s) c) volume 0 t := by
      have := IntervalIntegrable.sum (Finset.range inp.b.ncols)
        (f := fun c s => coefAt (inp.uCsc.cols.getD c []) k * u (s0 + s) c) fun c hc =>
          (hui inp hi c (Finset.mem_range.1 hc)).const_mul _
      have e : (∑ c ∈ Finset.range inp.b.ncols, fun s => coefAt (inp.uCsc.cols.getD c []) k * u (s0 + s) c) =
          fun s => ∑ c ∈ Finset.range inp.b.ncols, coefAt (inp.uCsc.cols.getD c []) k * u (s0 + s) c := by
        funext s; simp
      rw [e] at this
      exact this
    have hle := intervalIntegral.integral_mono_on ht hint (intervalIntegrable_const (c := inp.uRhs[k]))
      fun s hs => hadm s hs inp hi k hk
    rw [intervalIntegral.integral_const, sub_zero, smul_eq_mul] at hle
    calc _ ≤ t⁻¹ * (t * inp.uRhs[k]) := by gcongr
      _ = _ := by field_simp
  · have hb := variation_bound (aMat a) (v := fun s i => inputAt m (u (s0 + s)) i)
      (w := fun s i => w (s0 + s) i) (R := R) ht (fun i => hvi i) (fun i => ?_)
      (hC.preimage (add_right_injective s0)) (fun s hs i => ?_) (fun s hs i => hR _ (hadm s hs) i i.2) ⟨i, hi⟩
    · have e : ∫ s in (0:ℝ)..t, inputAt m (u (s0 + s)) i =
          t * inputAt m (fun c => t⁻¹ * ∫ s in (0:ℝ)..t, u (s0 + s) c) i := by
        cases hi : m.inputs with
        | none => simp [inputAt, hi]
        | some inp =>
          simp only [hsum inp hi]
          rw [hlin inp hi]
          field_simp
      simp only [add_zero] at hb
      rw [e] at hb
      exact hb
    · refine (h.cont i i.2).comp (by fun_prop) fun s hs => ?_
      exact ⟨by linarith [hs.1], by linarith [hs.2]⟩
    · have h1 := hd (s0 + s) ⟨⟨by linarith [hs.1.1], by linarith [hs.1.2]⟩, hs.2⟩ i i.2
      rw [dot_eq_mulVec hma.wf hma.sq] at h1
      exact h1.comp_const_add s0 s

theorem mulV_ex (m : Mode ℝ) (a : Csr ℝ) (τ : ℝ) (x : ℕ → ℝ) {i : ℕ} (hi : i < a.nrows) :
    mulV a.nrows ((dynOf a m.inputs τ).ex 1).e x i = (exp (τ • aMat a)).mulVec (fun j => x j) ⟨i, hi⟩ := by
  simp only [mulV, dynOf, ofSquare, Nat.cast_one, one_smul, Matrix.mulVec, dotProduct]
  rw [Finset.sum_range]
  refine Finset.sum_congr rfl fun j _ => ?_
  rw [dif_pos ⟨hi, j.2⟩]

/-- The bound of `window`. -/
theorem window_le {N t τ R : ℝ} (hN : 0 ≤ N) (ht : 0 ≤ t) (htt : t ≤ τ) (hτ : 0 < τ) (hR : 0 ≤ R) :
    ∫ s in (0:ℝ)..t, (Real.exp ((t - s) * N) - 1) * R ≤ t / τ * ((Real.exp (τ * N) - 1 - τ * N) * (R / N)) := by
  rcases hN.eq_or_lt with rfl | hN
  · simp
  · rw [variation_integral hN, ← mul_assoc]
    exact mul_le_mul_of_nonneg_right (exp_excess_le ht htt hτ) (by positivity)

/-- The first step: between the initial and the next state, up to `alpha`. -/
theorem first_step (hma : ModeReal m a) {c : LggCfg ℝ} (hexp : c.exp = Real.exp) (hτ : 0 < c.tau)
    (htol : aNorm a = 0 ∨ c.tol ≤ aNorm a) {rx rv : ℝ} (hrv : 0 ≤ rv) (hal : 0 ≤ c.alpha a rx rv)
    (hR : ∀ u, Admissible m u → ∀ i < a.nrows, |inputAt m u i| ≤ rv)
    {T : ℝ} {w u : ℝ → ℕ → ℝ} (h : Moves m a T w u) (hx : ∀ i < a.nrows, |w 0 i| ≤ rx) {t : ℝ} (h0 : 0 ≤ t)
    (ht : t ≤ c.tau) (hT : t ≤ T) :
    ∃ (v e : ℕ → ℝ), Admissible m v ∧ (∀ i < a.nrows, |e i| ≤ c.alpha a rx rv) ∧ ∀ i < a.nrows,
      w t i = (1 - t / c.tau) * w 0 i + t / c.tau *
        (mulV a.nrows ((dynOf a m.inputs c.tau).ex 1).e (w 0) i + c.tau * inputAt m v i + e i) := by
  have hrx : 0 ≤ rx := (abs_nonneg _).trans (hx 0 hma.pos)
  obtain ⟨v, hv, hw⟩ := window hma h (s0 := 0) le_rfl h0 (by simpa using hT) hR
  rcases h0.eq_or_lt with rfl | htp
  · exact ⟨v, fun _ => 0, hv, fun i _ => by simpa using hal, fun i _ => by simp⟩
  set l := t / c.tau with hl
  have hlp : 0 < l := div_pos htp hτ
  have hlt : l * c.tau = t := div_mul_cancel₀ _ hτ.ne'
  have hfac : c.factor a * (rx + rv / aNorm a) ≤ c.alpha a rx rv := by
    unfold LggCfg.alpha
    rcases htol with hz | hz
    · have : c.factor a = 0 := by simp [LggCfg.factor, hz, hexp]
      split <;> simp [this]
    · rw [if_neg (not_lt.2 hz)]
  refine ⟨v, fun i => (w t i - (1 - l) * w 0 i - l * mulV a.nrows ((dynOf a m.inputs c.tau).ex 1).e (w 0) i -
    t * inputAt m v i) / l, hv, fun i hi => ?_, fun i hi => ?_⟩
  · rw [abs_div, abs_of_pos hlp, div_le_iff₀ hlp]
    refine le_trans ?_ (mul_le_mul_of_nonneg_right hfac hlp.le)
    have h1 := hw i hi
    rw [zero_add] at h1
    have h2 := h1.trans (window_le (norm_nonneg (aMat a)) h0 ht hτ hrv)
    have h3 : |((exp (t • aMat a) - 1 - l • (exp (c.tau • aMat a) - 1)).mulVec fun j => w 0 j) ⟨i, hi⟩| ≤
        l * (Real.exp (c.tau * ‖aMat a‖) - 1 - c.tau * ‖aMat a‖) * rx := by
      refine (norm_le_pi_norm ((exp (t • aMat a) - 1 - l • (exp (c.tau • aMat a) - 1)).mulVec fun j => w 0 j)
        ⟨i, hi⟩).trans ?_
      refine (Matrix.linfty_opNorm_mulVec _ _).trans ?_
      refine mul_le_mul (norm_exp_chord (aMat a) h0 ht hτ) ((pi_norm_le_iff_of_nonneg hrx).2 fun j => hx j j.2)
        (norm_nonneg _) ?_
      have := Real.add_one_le_exp (c.tau * ‖aMat a‖)
      exact mul_nonneg hlp.le (by linarith)
    have e1 : w t i - (1 - l) * w 0 i - l * mulV a.nrows ((dynOf a m.inputs c.tau).ex 1).e (w 0) i -
        t * inputAt m v i = (w t i - (exp (t • aMat a)).mulVec (fun j => w 0 j) ⟨i, hi⟩ - t * inputAt m v i) +
        ((exp (t • aMat a) - 1 - l • (exp (c.tau • aMat a) - 1)).mulVec fun j => w 0 j) ⟨i, hi⟩ := by
      rw [mulV_ex m a c.tau (w 0) hi, Matrix.sub_mulVec, Matrix.sub_mulVec, Matrix.smul_mulVec,
        Matrix.sub_mulVec, Matrix.one_mulVec]
      simp only [Pi.sub_apply, Pi.smul_apply, smul_eq_mul]
      ring
    rw [e1]
    refine (abs_add_le _ _).trans ((add_le_add h2 h3).trans (le_of_eq ?_))
    simp only [LggCfg.factor, hexp, aNorm_eq hma.sq]
    ring
  · field_simp
    rw [← hlt]
    ring

/-- A whole step, up to `beta`. -/
theorem whole_step (hma : ModeReal m a) {τ : ℝ} (hτ : 0 < τ) {R : ℝ} (hR0 : 0 ≤ R)
    (hR : ∀ u, Admissible m u → ∀ i < a.nrows, |inputAt m u i| ≤ R)
    {T : ℝ} {w u : ℝ → ℕ → ℝ} (h : Moves m a T w u) {s : ℝ} (h0 : 0 ≤ s) (hT : s + τ ≤ T) :
    ∃ (v e : ℕ → ℝ), Admissible m v ∧ (∀ i < a.nrows, |e i| ≤ (Real.exp (τ * aNorm a) - 1 - τ * aNorm a) * (R / aNorm a)) ∧
      ∀ i < a.nrows, w (s + τ) i = mulV a.nrows ((dynOf a m.inputs τ).ex 1).e (w s) i + (τ * inputAt m v i + e i) := by
  obtain ⟨v, hv, hw⟩ := window hma h h0 hτ.le hT hR
  refine ⟨v, fun i => w (s + τ) i - mulV a.nrows ((dynOf a m.inputs τ).ex 1).e (w s) i - τ * inputAt m v i, hv,
    fun i hi => ?_, fun i _ => by ring⟩
  have h1 := (hw i hi).trans (window_le (norm_nonneg (aMat a)) hτ.le le_rfl hτ hR0)
  rw [div_self hτ.ne', one_mul] at h1
  simp only
  rw [mulV_ex m a τ (w s) hi, aNorm_eq hma.sq]
  exact h1

/-- Without dynamics the input effects are `τ B`. -/
theorem inputEffects_zero {a b : Csr ℝ} (h : aMat a = 0) (τ : ℝ) {i c : ℕ} (hi : i < a.nrows) :
    (inputEffects a b τ).e i c = τ * coefAt (b.row i) c := by
  simp only [inputEffects, dif_pos hi]
  have hsq : augMat a b c * augMat a b c = 0 := by
    ext i j
    rw [Matrix.mul_apply]
    refine Finset.sum_eq_zero fun k _ => ?_
    unfold augMat
    by_cases hk : (k : ℕ) < a.nrows
    · by_cases hi : (i : ℕ) < a.nrows
      · have := congrFun (congrFun h ⟨i, hi⟩) ⟨k, hk⟩
        simp only [aMat, Matrix.zero_apply] at this
        simp [hk, hi, this]
      · simp [hi]
    · simp [hk]
  have h1 := exp_hasSum (augMat a b c) τ
  have h2 : HasSum (fun k : ℕ => ((k.factorial : ℝ)⁻¹ * τ ^ k) • augMat a b c ^ k)
      (∑ k ∈ Finset.range 2, ((k.factorial : ℝ)⁻¹ * τ ^ k) • augMat a b c ^ k) := by
    refine hasSum_sum_of_ne_finset_zero fun k hk => ?_
    obtain ⟨j, rfl⟩ : ∃ j, k = j + 2 := ⟨k - 2, by simp at hk; omega⟩
    rw [pow_add (augMat a b c) j 2, pow_two (augMat a b c), hsq, mul_zero, smul_zero]
  rw [h1.unique h2]
  simp [Finset.sum_range_succ, augMat, hi, Matrix.one_apply, Fin.ext_iff, Fin.last]
  intro hh; omega

end Hylaa
