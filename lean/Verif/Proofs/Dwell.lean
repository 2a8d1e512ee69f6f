import Verif.Spec.Continuous
import Verif.Props.Reach

/-! # Discrete steps and trajectories -/

set_option linter.unusedSectionVars false

namespace Hylaa
open Spec Set

/-- The input matrix of a mode (empty, if there is none). -/
noncomputable def bOf (m : Mode ℝ) : Csr ℝ :=
  match m.inputs with
  | none => ⟨0, []⟩
  | some p => p.b

theorem bOf_wf {m : Mode ℝ} {a : Csr ℝ} (h : ModeReal m a) : (bOf m).WF := by
  unfold bOf
  cases hi : m.inputs with
  | none => intro r hr; simp at hr
  | some p => exact (h.inp p hi).2

theorem inputTerm_eq (m : Mode ℝ) (τ : ℝ) (u : ℕ → ℕ → ℝ) (t : ℝ) (i : ℕ) :
    inputTerm m τ u t i = dot ((bOf m).row i) (u ⌊t / τ⌋₊) := by
  unfold inputTerm bOf
  cases m.inputs with
  | none => simp [Csr.row]
  | some p => rfl

theorem flow_oneStep {m : Mode ℝ} {a : Csr ℝ} (τ : ℝ) (y u : ℕ → ℝ) {i : ℕ}
    (hi : i < a.nrows) : flow a (bOf m) y u τ i =
      mulV a.nrows ((dynOf a m.inputs τ).ex 1).e y i + inputPart (dynOf a m.inputs τ) u i := by
  rw [flow_eq_mats (inp := m.inputs) τ y u hi]
  congr 1
  unfold bOf inputPart
  cases hin : m.inputs with
  | none => simp [dynOf]
  | some p => simp [dynOf, mulV, inputEffects]

theorem Solves.shift {a : Csr ℝ} {d d' : ℝ → ℕ → ℝ} {T S c : ℝ} {w : ℝ → ℕ → ℝ} (h : Solves a d T w)
    (hc : 0 ≤ c) (hT : c + S ≤ T) (hd : ∀ s ∈ Ico 0 S, ∀ i < a.nrows, d (c + s) i = d' s i) :
    Solves a d' S fun s => w (c + s) := by
  refine ⟨fun i hi => ?_, fun i hi s hs => ?_⟩
  · refine (h.cont i hi).comp (continuousOn_const.add continuousOn_id) fun s hs => ?_
    show c + s ∈ Icc 0 T
    exact ⟨by linarith [hs.1], by linarith [hs.2]⟩
  · have := h.deriv i hi (c + s) ⟨by linarith [hs.1], by linarith [hs.2]⟩
    rw [hd s hs i hi] at this
    have hin : HasDerivWithinAt (fun s : ℝ => c + s) 1 (Ici s) s :=
      ((hasDerivAt_id s).const_add c).hasDerivWithinAt
    have := HasDerivWithinAt.comp s this hin fun r hr => by
      simp only [mem_Ici] at hr ⊢; linarith
    rw [mul_one] at this
    exact this

theorem floor_step {τ : ℝ} (hτ : 0 < τ) (k : ℕ) {s : ℝ} (h0 : 0 ≤ s) (h1 : s < τ) :
    ⌊((k : ℝ) * τ + s) / τ⌋₊ = k := by
  rw [Nat.floor_eq_iff (by positivity)]
  constructor
  · rw [le_div_iff₀ hτ]; linarith
  · rw [div_lt_iff₀ hτ]; linarith

theorem dwells_flow {m : Mode ℝ} {a : Csr ℝ} (h : ModeReal m a) {ε τ : ℝ} (hτ : 0 < τ) (k : ℕ) :
    ∀ {x z : ℕ → ℝ}, Dwells ε m a τ k x z → Flow ε m (dynOf a m.inputs τ) k x z := by
  induction k with
  | zero =>
    rintro x z ⟨w, u, -, -, h0, hz, -⟩
    refine .zero fun i hi => ?_
    rw [hz i hi]
    simp only [Nat.cast_zero, zero_mul]
    exact h0 i hi
  | succ k ih =>
    rintro x z ⟨w, u, hu, hw, h0, hz, hinv⟩
    have hk : ((k + 1 : ℕ) : ℝ) * τ = k * τ + τ := by push_cast; ring
    rw [hk] at hw hz
    have hk0 : (0 : ℝ) ≤ k * τ := by positivity
    have hsol : Solves a (fun _ i => dot ((bOf m).row i) (u k)) τ fun s => w (k * τ + s) :=
      Solves.shift hw hk0 le_rfl fun s hs i _ => by rw [inputTerm_eq, floor_step hτ k hs.1 hs.2]
    have hold : Solves a (inputTerm m τ u) (k * τ) w :=
      ⟨fun i hi => (hw.cont i hi).mono (Icc_subset_Icc_right (by linarith)),
        fun i hi t ht => hw.deriv i hi t ⟨ht.1, by linarith [ht.2]⟩⟩
    refine .step (ih (z := w (k * τ)) ⟨w, u, fun l hl => hu l (by omega), hold, h0, fun _ _ => rfl,
      fun l hl => hinv l (by omega)⟩) ?_ ⟨u k, hu k (by omega), fun i hi => ?_⟩
    · exact hinv k (by omega)
    · rw [hz i hi, flow_unique h.wf h.sq (bOf_wf h) hτ.le hsol (x0 := w (k * τ)) (fun i _ => by simp) hi,
        flow_oneStep τ _ _ hi]
      rfl

theorem flow_dwells {m : Mode ℝ} {a : Csr ℝ} (h : ModeReal m a) {ε τ : ℝ} (hτ : 0 < τ) {k : ℕ}
    {x z : ℕ → ℝ} (hf : Flow ε m (dynOf a m.inputs τ) k x z) : Dwells ε m a τ k x z := by
  induction hf with
  | @zero x z he =>
    refine ⟨fun _ => x, fun _ _ => 0, by simp, ⟨fun i hi => continuousOn_const, fun i hi t ht => ?_⟩,
      fun _ _ => rfl, he, by simp⟩
    have := ht.2
    have := ht.1
    simp at *
  | @step k x y z hf hi hs ih =>
    obtain ⟨w, u, hu, hw, h0, hy, hinv⟩ := ih
    obtain ⟨u', hu', hz⟩ := hs
    have hz : ∀ i < a.nrows, z i = flow a (bOf m) y u' τ i := fun i hi => by
      rw [flow_oneStep τ _ _ hi]; exact hz i hi
    have hk : ((k + 1 : ℕ) : ℝ) * τ = k * τ + τ := by push_cast; ring
    have hk0 : (0 : ℝ) ≤ k * τ := by positivity
    have hfs := flow_solves h.wf h.sq (bOf_wf h) y u' τ
    let W : ℝ → ℕ → ℝ := fun t => if t ≤ k * τ then w t else flow a (bOf m) y u' (t - k * τ)
    let U : ℕ → ℕ → ℝ := fun l => if l < k then u l else u'
    have e1 : ∀ t, t ≤ k * τ → W t = w t := fun t ht => if_pos ht
    have e2 : ∀ t, k * τ ≤ t → ∀ i < a.nrows, W t i = flow a (bOf m) y u' (t - k * τ) i := by
      intro t ht i hi
      rcases eq_or_lt_of_le ht with rfl | ht
      · rw [e1 _ le_rfl, sub_self, flow_zero y u' i hi]
        exact (hy i hi).symm
      · simp only [W, if_neg (not_le.2 ht)]
    have hrow : ∀ (i : ℕ) (v v' : ℕ → ℝ), (∀ j < a.nrows, v j = v' j) → dot (a.row i) v = dot (a.row i) v' := by
      intro i v v' hv
      refine dot_congr fun p hp => hv _ ?_
      have := h.wf
      rw [← h.sq]
      by_cases hl : i < a.rows.length
      · refine this (a.row i) ?_ p hp
        rw [Csr.row_lt hl]
        exact List.getElem_mem hl
      · unfold Csr.row at hp
        rw [List.getD_eq_getElem?_getD, List.getElem?_eq_none (by omega)] at hp
        simp at hp
    refine ⟨W, U, fun l hl => ?_, ⟨fun i hi => ?_, fun i hi t ht => ?_⟩, ?_, fun i hi => ?_, fun l hl => ?_⟩
    · by_cases hlk : l < k
      · simp only [U, if_pos hlk]; exact hu l hlk
      · simp only [U, if_neg hlk]; exact hu'
    · rw [hk]
      have hun : Icc (0 : ℝ) (k * τ + τ) = Icc 0 (k * τ) ∪ Icc (k * τ) (k * τ + τ) :=
        (Icc_union_Icc_eq_Icc hk0 (by linarith)).symm
      rw [hun]
      refine ContinuousOn.union_of_isClosed ?_ ?_ isClosed_Icc isClosed_Icc
      · exact (hw.cont i hi).congr fun t ht => by rw [e1 t ht.2]
      · have : ContinuousOn (fun t => flow a (bOf m) y u' (t - k * τ) i) (Icc (k * τ) (k * τ + τ)) := by
          refine (hfs.cont i hi).comp (continuousOn_id.sub continuousOn_const) fun s hs => ?_
          show s - k * τ ∈ Icc 0 τ
          exact ⟨by linarith [hs.1], by linarith [hs.2]⟩
        exact this.congr fun t ht => e2 t ht.1 i hi
    · rw [hk] at ht
      rw [inputTerm_eq]
      by_cases htk : t < k * τ
      · have hfl : ⌊t / τ⌋₊ < k := by
          rw [Nat.floor_lt (div_nonneg ht.1 hτ.le), div_lt_iff₀ hτ]; exact htk
        simp only [U, if_pos hfl]
        rw [e1 t htk.le, ← inputTerm_eq]
        refine (hw.deriv i hi t ⟨ht.1, htk⟩).congr_of_eventuallyEq ?_ (by rw [e1 t htk.le])
        filter_upwards [mem_nhdsWithin_of_mem_nhds (Iio_mem_nhds htk)] with s hs
        rw [e1 s (le_of_lt hs)]
      · rw [not_lt] at htk
        have hfl : ⌊t / τ⌋₊ = k := by
          have := floor_step hτ k (s := t - k * τ) (by linarith) (by linarith [ht.2])
          rwa [add_sub_cancel] at this
        simp only [hfl, U, if_neg (lt_irrefl k)]
        have hd := hfs.deriv i hi (t - k * τ) ⟨by linarith, by linarith [ht.2]⟩
        rw [hrow i (W t) (flow a (bOf m) y u' (t - k * τ)) (e2 t htk)]
        have hin : HasDerivWithinAt (fun s : ℝ => s - k * τ) 1 (Ici t) t :=
          ((hasDerivAt_id t).sub_const _).hasDerivWithinAt
        have := HasDerivWithinAt.comp t hd hin fun r hr => by
          simp only [mem_Ici] at hr ⊢; linarith
        rw [mul_one] at this
        exact this.congr (fun s hs => e2 s (le_trans htk hs) i hi) (e2 t htk i hi)
    · intro i hi
      rw [e1 0 hk0]
      exact h0 i hi
    · rw [hk, e2 _ (by linarith) i hi, add_sub_cancel_left]
      exact hz i hi
    · rcases Nat.lt_succ_iff_lt_or_eq.1 hl with hlk | rfl
      · rw [e1 _ (by gcongr)]
        exact hinv l hlk
      · rw [e1 _ le_rfl]
        exact (InvEps.congr h.inv hy).1 hi

/-- Discrete flow and trajectories are the same. -/
theorem flow_iff_dwells {m : Mode ℝ} {a : Csr ℝ} (h : ModeReal m a) {ε τ : ℝ} (hτ : 0 < τ) (k : ℕ)
    (x z : ℕ → ℝ) : Flow ε m (dynOf a m.inputs τ) k x z ↔ Dwells ε m a τ k x z :=
  ⟨flow_dwells h hτ, dwells_flow h hτ k⟩

end Hylaa
