import Verif.Props.Ops
import Verif.Proofs.Accept2

/-! # Non-vacuity of the theorems of `Props/Ops.lean` on a running example -/

set_option linter.unusedSectionVars false

namespace Hylaa
open Spec

/-- One variable, one input in `[-1, 1]`. -/
def exInputs : Inputs ℚ := ⟨⟨1, [[(0, 1)]]⟩, ⟨2, [[(0, 1), (1, -1)]]⟩, [1, 1]⟩

/-- `x' = x + u`. -/
def exModeU : Mode ℚ :=
  { name := "u", id := 1, a := some ⟨1, [[(0, 1)]]⟩, inputs := some exInputs }

/-- The `1 x 1` matrix `a`. -/
def mat1 (a : ℚ) : Mat ℚ := ⟨1, 1, fun _ _ => a⟩

theorem exInputs_ok (u : ℕ → ℚ) : InputSet exInputs u ↔ u 0 ≤ 1 ∧ -u 0 ≤ 1 := by
  unfold InputSet
  constructor
  · intro h
    have h1 := h 0 (by simp [exInputs])
    have h2 := h 1 (by simp [exInputs])
    simp [exInputs, coefAt] at h1 h2
    exact ⟨h1, by linarith⟩
  · rintro ⟨h1, h2⟩ i hi
    simp only [exInputs, List.length_cons, List.length_nil] at hi
    rcases i with _ | _ | i
    · simpa [exInputs, coefAt] using h1
    · simpa [exInputs, coefAt] using h2
    · omega

/-- The instance built from the box `[0, 1]`. -/
theorem exBox : ∃ lp : Lp ℚ, Hist (idealSolver ℚ) lp (Rep.ofSet 1 (Typed
    (⟨1, [[(0, -1)], [(0, 1)]]⟩ : Csr ℚ) [.up, .up] [-0, 1])) [] ∧ lp.dims = 1 ∧
    lp.ie.isSome = true ∧ ∀ x, lp.Mem x ↔ 0 ≤ x 0 ∧ x 0 ≤ 1 := by
  obtain ⟨lp, h⟩ := C01_from_box_accepts (idealSolver_complete (K := ℚ)) (box := [(0, 1)])
    exModeU (by norm_num)
  have hm := C01_from_box h
  simp only [fromBox, bind_ok, assert_ok] at h
  obtain ⟨_, -, h⟩ := h
  have hH := Hist.construct h (by simp) (boxCsr_wf [((0 : ℚ), 1)])
  obtain ⟨-, -, -, -, -, hd, -, -, hie, -⟩ := fromConstraints_ok h (by simp)
  refine ⟨lp, hH, hd, by rw [hie]; rfl, fun x => (hm x).trans ?_⟩
  constructor
  · intro h; exact h 0 (by simp)
  · intro h i hi
    simp at hi; subst hi; exact h

/-- After one step `x ↦ 2 x + u`: the set is `[-1, 3]`. -/
theorem exStep : ∃ (lp : Lp ℚ) (ρ : Rep ℚ), Hist (idealSolver ℚ) lp ρ [] ∧ lp.dims = 1 ∧ ρ.n = 1 ∧
    ρ.m = 1 ∧ ρ.Ns = [mat1 1] ∧ ρ.B = (mat1 2).e ∧ ∀ x, lp.Mem x ↔ -1 ≤ x 0 ∧ x 0 ≤ 3 := by
  obtain ⟨lp, hH, hd, hie, hm⟩ := exBox
  have hS := (idealSolver_complete (K := ℚ)).toHonest
  obtain ⟨s1, h1⟩ := setBasisMatrix_accepts lp.toSys (m := mat1 2) hd.symm hd.symm
  obtain ⟨B, X, R, hsh⟩ := ((Inst.hist hH).inv hS).2.2.2 rfl
  have hv1 := (setBasisMatrix_shape h1 hsh).2.1
  have hH1 := Hist.setBasis hH h1
  have hm1 : ∀ x, s1.Mem x ↔ 0 ≤ x 0 ∧ x 0 ≤ 2 := by
    intro x
    have := hH1.mem hS x
    refine this.trans ?_
    unfold Rep.Mem Rep.val
    simp only [Rep.setBasis, Rep.ofSet, mat1, inSum]
    constructor
    · rintro ⟨y, u, ⟨z, hz, hyz⟩, hx⟩
      have h0 := hz 0 (by simp)
      have h1 := hz 1 (by simp)
      have h2 := hx 0 (by simp)
      have h3 := hyz 0 (by simp)
      simp [Csr.row] at h0 h1 h2
      rw [h2, h3]
      constructor <;> linarith
    · rintro ⟨h1, h2⟩
      refine ⟨fun _ => x 0 / 2, fun _ _ => 0, ⟨fun _ => x 0 / 2, ?_, fun _ _ => rfl⟩, ?_⟩
      · intro i hi
        rcases i with _ | _ | i
        · simp [Csr.row]; linarith
        · simp [Csr.row]; linarith
        · simp at hi
      · intro i hi
        simp at hi; subst hi; simp; ring
  obtain ⟨s2, h2⟩ := addInputEffects_accepts (s := s1) (n := mat1 1) (mode := exModeU)
    (inp := exInputs) (a := ⟨1, [[(0, 1)]]⟩) (by rw [hv1.ie]; exact hie) rfl rfl rfl
    (by rw [hv1.dims, hd]; rfl) (by rw [hv1.dims, hd])
  have hH2 := Hist.addInput hH1 h2 rfl (Or.inl rfl)
  have hC := C05_add_input_effects hS (Inst.hist hH1) (inp := exInputs) rfl h2
  have hv2 := (addInputEffects_shape h2 rfl
    (setBasisMatrix_shape h1 hsh).1).2.1
  refine ⟨_, _, hH2, by simp only; rw [hv2.dims, hv1.dims, hd], rfl, rfl, rfl, rfl, fun x => ?_⟩
  refine (hC x).trans ?_
  unfold AddImage mulV
  simp only [hv1.dims, hd, exInputs_ok]
  constructor
  · rintro ⟨z, u, hz, hu, hx⟩
    have hz := (hm1 z).1 hz
    have hx := hx 0 (by simp)
    simp [exInputs, mat1] at hx
    rw [hx]; constructor <;> linarith [hz.1, hz.2, hu.1, hu.2]
  · rintro ⟨h1, h2⟩
    by_cases hx : x 0 ≤ 1
    · refine ⟨fun _ => max 0 (x 0), fun _ => x 0 - max 0 (x 0), (hm1 _).2 ?_, ?_, ?_⟩
      · simp; linarith
      · rcases le_total 0 (x 0) with h | h
        · simp [h]
        · simp [h]; constructor <;> linarith
      · intro i hi; simp at hi; subst hi; simp [exInputs, mat1]
    · refine ⟨fun _ => min 2 (x 0), fun _ => x 0 - min 2 (x 0), (hm1 _).2 ?_, ?_, ?_⟩
      · simp; linarith
      · rcases le_total 2 (x 0) with h | h
        · simp [h]; constructor <;> linarith
        · simp [h]
      · intro i hi; simp at hi; subst hi; simp [exInputs, mat1]

/-- C08 on the example: cutting `[-1, 3]` with `x <= 1`. -/
example : ∃ (lp : Lp ℚ) (ρ : Rep ℚ) (s : Sys ℚ) (row : ℕ), Hist (idealSolver ℚ) lp ρ [] ∧
    addInitConstraint lp.toSys [1] 1 (mat1 2) (some [mat1 1]) none = .ok (s, row) ∧
    lp.Mem (fun _ => 3) ∧ ¬ s.Mem (fun _ => 3) ∧ s.Mem (fun _ => 1) := by
  obtain ⟨lp, ρ, hH, hd, hn, hmm, hNs, hB, hmem⟩ := exStep
  have hS := (idealSolver_complete (K := ℚ)).toHonest
  obtain ⟨s, row, h⟩ := addInitConstraint_accepts (hH.inv hS).1 (vec := [1]) (rhs := 1)
    (bm := mat1 2) (ies := some [mat1 1]) (by rw [hn]; rfl) (by rw [hn]; rfl)
    (by rw [hmm]; simp [mat1]) (by rw [hNs]; simp)
  have hC := C08_add_init_constraint hS hH (by rw [hn]; rfl) (by rw [hB]; simp) (by rw [hNs]; rfl)
    (by rw [hNs, hmm]; simp [mat1]) h
  refine ⟨lp, ρ, s, row, hH, h, (hmem _).2 (by norm_num), fun hc => ?_, ?_⟩
  · have := ((hC _).1 hc).2
    norm_num [dotN, hn] at this
  · refine (hC _).2 ⟨(hmem _).2 (by norm_num), ?_⟩
    norm_num [dotN, hn]

/-- C16 on the example: bloating `[-1, 3]` by 1 gives a set containing 4; setting the basis matrix
again loses 4. -/
example : ∃ (lp : Lp ℚ) (s s1 : Sys ℚ), Inst (idealSolver ℚ) lp true ∧
    bloat lp.toSys 1 = .ok s ∧ setBasisMatrix s (mat1 2) = .ok s1 ∧
    s.Mem (fun _ => 4) ∧ ¬ s1.Mem (fun _ => 4) := by
  obtain ⟨lp, ρ, hH, hd, hn, hmm, hNs, hB, hmem⟩ := exStep
  have hS := (idealSolver_complete (K := ℚ)).toHonest
  have hI := Inst.hist hH
  obtain ⟨s, h⟩ := bloat_accepts lp.toSys (a := 1) (by norm_num) "bloat"
  obtain ⟨B, X, R, hsh⟩ := (hI.inv hS).2.2.2 rfl
  have hv := (bloat_shape h hsh).2.1
  obtain ⟨s1, h1⟩ := setBasisMatrix_accepts s (m := mat1 2) (by rw [hv.dims, hd]; rfl)
    (by rw [hv.dims, hd]; rfl)
  obtain ⟨s2, h2⟩ := setBasisMatrix_accepts lp.toSys (m := mat1 2) (by rw [hd]; rfl)
    (by rw [hd]; rfl)
  refine ⟨lp, s, s1, hI, h, h1, (C16_bloat_exact hS hI h _).2
    ⟨fun _ => 3, fun _ => 1, (hmem _).2 (by norm_num), by norm_num, by norm_num⟩, fun hc => ?_⟩
  have h3 := (C16_set_basis_forgets_bloat hS hI h h1 h2 _).1 hc
  have h4 := (Hist.setBasis hH h2).mem hS (fun _ => 4)
  have h5 := h4.1 h3
  have h6 : ρ.Mem (fun _ => 4) := by
    unfold Rep.Mem Rep.val at *
    rw [hB]; exact h5
  have := (hmem _).1 ((hH.mem hS _).2 h6)
  norm_num at this

end Hylaa
