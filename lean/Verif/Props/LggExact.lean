import Verif.Proofs.LggExact
import Verif.Props.ApproxAccept

/-!
# C53: the set of the LGG model

The set is exactly `conv(X ∪ (e^{A τ} X ⊕ τ B U ⊕ [-α, α]^n))`, and what follows when the norm of `A` is at most
`1e-7`: then `α = 0`, and points of the first interval are missing.
-/

set_option linter.unusedSectionVars false

namespace Hylaa
open Spec

section
variable {K : Type} [Field K] [LinearOrder K] [IsStrictOrderedRing K]

/-- **C53, the formula.** The LGG model replaces the set `X` a mode is entered with by exactly the convex hull of `X`
and `e^{A τ} X ⊕ τ B U ⊕ [-α, α]^n`, where `α = (e^{τ |A|} - 1 - τ |A|) (r(X) + r(B U) / |A|)` (0 if `|A|` is below
the tolerance), `|A|` is the row-sum norm and `r` the largest absolute value of a coordinate. -/
theorem C53_lgg_formula {S : Solver K} (hS : S.Honest) {T : Tols K} {m : Mode K} {a : Csr K} {d : Dyn K}
    (hd : d.For m) (hpos : 0 < d.dims) (ha : m.a = some a) (had : a.nrows = d.dims)
    (hin : ∀ inp, m.inputs = some inp → inp.Shaped d.dims) {csr : Csr K} {rhs : List K} {mode : Mode K}
    {types : Option (List RowType)} {names : Option (List String)} {dims? : Option ℕ} {lp : Lp K}
    (hc : fromConstraints S csr rhs mode types names dims? = .ok lp)
    (hnames : ∀ ns, names = some ns → ns.length = csr.ncols) (hwf : csr.WF)
    (hlo : RowType.lo ∉ types.getD []) (hdims : dims?.getD csr.ncols = d.dims)
    {mid : ℕ} {steps : ℕ × ℕ} {ol : List ℕ} {con : Bool} {st st' : SS K} {te te' : Option (TE K)}
    (hte : ∀ t, te = some t → t.Inv d) {c : LggCfg K} (hm : SS.make T m mid lp steps ol con = .ok st)
    (hap : st.applyApprox S T c d m .lgg te = .ok (te', st')) :
    ∃ rx rv, IsGreatest {r | ∃ x i, lp.Mem x ∧ i < d.dims ∧ r = |x i|} rx ∧
      IsGreatest {r | ∃ u i, Admissible m u ∧ i < d.dims ∧ r = |inputAt m u i|} rv ∧
      let alpha := if aNorm a < c.tol then 0 else
        (c.exp (c.tau * aNorm a) - 1 - c.tau * aNorm a) * (rx + rv / aNorm a)
      Pts d.dims st'.lp.Mem = convexHull K (Pts d.dims lp.Mem ∪ Pts d.dims fun z => ∃ x u, ∃ e : ℕ → K,
        lp.Mem x ∧ Admissible m u ∧ (∀ i < d.dims, |e i| ≤ alpha) ∧
        ∀ i < d.dims, z i = mulV d.dims (d.ex 1).e x i + c.tau * inputAt m u i + e i) := by
  have hH := Hist.construct hc hnames hwf
  rw [hdims] at hH
  obtain ⟨hst0, hok⟩ := SS.Ok.make (ε := 0) hd ha (hH.inv hS).1 (hH.inv hS).2.1 had hm
  obtain ⟨⟨ρ, hsh, -⟩, -⟩ := hok
  have hs0 : st.stepIn = 0 := by rw [hst0]
  have hslp : st.lp = lp := by rw [hst0]
  simp only [SS.applyApprox, bind_ok, assert_ok] at hap
  obtain ⟨_, -, hap⟩ := hap
  obtain ⟨rx, rv, h1, h2, h3⟩ := approxLgg_exact hS hpos hin ha (fun t ht => (hte t ht).one) hsh hs0
    (by rw [hslp]; exact fromConstraints_noLo' hc hnames hlo) (by rw [hslp]; exact fresh_cols hc hnames hwf) hap
  rw [hslp] at h1 h3
  refine ⟨rx, rv, h1, ?_, h3⟩
  obtain ⟨⟨v, i, ⟨u, hu, hv⟩, hi, e⟩, h2⟩ := h2
  refine ⟨⟨u, i, hu, hi, by rw [e, hv i hi]⟩, ?_⟩
  rintro _ ⟨u, i, hu, hi, rfl⟩
  exact h2 ⟨_, i, ⟨u, hu, fun _ _ => rfl⟩, hi, rfl⟩

end

/-! ## A matrix of small norm -/

/-- `x' = ε y, y' = ε z, z' = 0` -/
noncomputable def tinyA (ε : ℝ) : Csr ℝ := ⟨3, [[(1, ε)], [(2, ε)], []]⟩

noncomputable def tinyMode (ε : ℝ) : Mode ℝ := { name := "t", id := 0, a := some (tinyA ε) }

theorem tinyMode_real (ε : ℝ) : ModeReal (tinyMode ε) (tinyA ε) where
  dyns := rfl
  wf := by
    intro r hr
    simp only [tinyA, List.mem_cons, List.not_mem_nil, or_false] at hr
    rcases hr with rfl | rfl | rfl <;> simp [tinyA]
  sq := rfl
  pos := by simp [tinyA, Csr.nrows]
  inp := by simp [tinyMode]
  inv := ⟨by simp [tinyMode], by simp [tinyMode], by simp [tinyMode]⟩

theorem tinyA_norm {ε : ℝ} (h : 0 ≤ ε) : aNorm (tinyA ε) = ε := by
  simp [aNorm, tinyA, Csr.nrows, Csr.row, coefAt, List.range_succ, abs_of_nonneg h, h]

/-- The motion from `(0, 0, 1)`: `(ε² t² / 2, ε t, 1)`. -/
noncomputable def tinyW (ε : ℝ) (t : ℝ) (i : ℕ) : ℝ := if i = 0 then ε ^ 2 * t ^ 2 / 2 else if i = 1 then ε * t else 1

theorem tiny_moves (ε T : ℝ) : Moves (tinyMode ε) (tinyA ε) T (tinyW ε) fun _ _ => 0 := by
  have hd : ∀ t, ∀ i < 3, HasDerivAt (fun s => tinyW ε s i) (dot ((tinyA ε).row i) (tinyW ε t)) t := by
    intro t i hi
    have hid : HasDerivAt (fun s : ℝ => s) 1 t := hasDerivAt_id t
    interval_cases i
    · have h2 : HasDerivAt (fun s : ℝ => ε ^ 2 * s ^ 2 / 2) (ε ^ 2 * (2 * t ^ 1 * 1) / 2) t := by
        simpa using ((hid.pow 2).const_mul (ε ^ 2)).div_const 2
      have e : ε ^ 2 * (2 * t ^ 1 * 1) / 2 = ε * (ε * t) := by ring
      rw [e] at h2
      simpa [tinyW, tinyA, Csr.row, dot] using h2
    · simpa [tinyW, tinyA, Csr.row, dot] using hid.const_mul ε
    · simpa [tinyW, tinyA, Csr.row, dot] using hasDerivAt_const t (1 : ℝ)
  refine ⟨fun i hi => ?_, ⟨∅, by simp, fun t _ i hi => ?_⟩, fun t _ => ?_, fun inp h => by simp [tinyMode] at h⟩
  · exact fun t _ => (hd t i hi).continuousAt.continuousWithinAt
  · simpa [inputAt, tinyMode] using hd t i hi
  · simp [Admissible, tinyMode]

/-- **C53 is false for `0 < |A| < 1e-7`**: alpha is then 0 although `e^{τ |A|} - 1 - τ |A|` is not, and the set of the
LGG model misses states of the first interval: for `x' = ε y, y' = ε z, z' = 0` from `(0, 0, 1)` and any step size,
the set does not contain the state at half the step. -/
theorem C53_small_norm_missed {ε τ : ℝ} (h0 : 0 < ε) (h1 : ε < 1 / 10 ^ 7) (hτ : 0 < τ) :
    aNorm (tinyA ε) = ε ∧ Moves (tinyMode ε) (tinyA ε) τ (tinyW ε) (fun _ _ => 0) ∧
    ∃ (lp : Lp ℝ) (st st1 : SS ℝ) (te1 : Option (TE ℝ)),
      fromBox (idealSolver ℝ) [(0, 0), (0, 0), (1, 1)] (tinyMode ε) = .ok lp ∧ lp.Mem (tinyW ε 0) ∧
      SS.make (exT ℝ) (tinyMode ε) 0 lp (0, 0) [] true = .ok st ∧
      st.applyApprox (idealSolver ℝ) (exT ℝ) ⟨Real.exp, τ, 1 / 10 ^ 7, 10 ^ 5⟩ (dynOf (tinyA ε) none τ) (tinyMode ε)
        .lgg none = .ok (te1, st1) ∧ ¬ st1.lp.Mem (tinyW ε (τ / 2)) := by
  have hC := idealSolver_complete (K := ℝ)
  set c : LggCfg ℝ := ⟨Real.exp, τ, 1 / 10 ^ 7, 10 ^ 5⟩ with hcdef
  refine ⟨tinyA_norm h0.le, tiny_moves ε τ, ?_⟩
  obtain ⟨lp, hlp⟩ := C01_from_box_accepts hC (box := [((0 : ℝ), 0), (0, 0), (1, 1)]) (tinyMode ε) (by norm_num)
  have hmem : ∀ x, lp.Mem x ↔ x 0 = 0 ∧ x 1 = 0 ∧ x 2 = 1 := by
    intro x
    rw [C01_from_box hlp]
    constructor
    · intro h
      have b0 := h 0 (by simp)
      have b1 := h 1 (by simp)
      have b2 := h 2 (by simp)
      simp at b0 b1 b2
      exact ⟨le_antisymm b0.2 b0.1, le_antisymm b1.2 b1.1, le_antisymm b2.2 b2.1⟩
    · rintro ⟨e0, e1, e2⟩ i hi
      have : i < 3 := hi
      interval_cases i <;> simp [e0, e1, e2]
  have hfb := hlp
  simp only [fromBox, bind_ok, assert_ok] at hlp
  obtain ⟨_, -, hlp⟩ := hlp
  have hm0 : lp.Mem (tinyW ε 0) := (hmem _).2 (by simp [tinyW])
  obtain ⟨st, te1, st1, te', st', m1, m2, -⟩ := C53_lgg_accepts hC (T := exT ℝ) (le_refl _) (le_refl _)
    (c := c) rfl (tinyMode_real ε) (by simp [tinyMode]) (by simp [tinyMode])
    ⟨fun _ => 0, by simp [Admissible, tinyMode]⟩ ⟨0, fun u _ i _ => by simp [inputAt, tinyMode]⟩
    (by intro _ h; simp [tinyMode] at h) hlp (by simp) (boxCsr_wf _) (by simp) rfl ⟨_, hm0⟩
    ⟨1, fun x hx i hi => by
      have hi : i < 3 := hi
      obtain ⟨e0, e1, e2⟩ := (hmem x).1 hx
      interval_cases i <;> simp [e0, e1, e2]⟩ 0 (0, 0) [] true 0
  refine ⟨lp, st, st1, te1, hfb, hm0, m1, m2, ?_⟩
  obtain ⟨rx, rv, -, -, hf⟩ := C53_lgg_formula hC.toHonest ((tinyMode_real ε).dyn τ) (by simp [dynOf, tinyA, Csr.nrows]) rfl rfl
    (by simp [tinyMode]) hlp (by simp) (boxCsr_wf _) (by simp) rfl (by simp) m1 m2
  simp only [tinyA_norm h0.le, hcdef, if_pos h1] at hf
  intro hmid
  have hin : (fun i : Fin 3 => tinyW ε (τ / 2) i) ∈ Pts 3 st1.lp.Mem := ⟨_, hmid, fun _ => rfl⟩
  have hd3 : (dynOf (tinyA ε) none τ).dims = 3 := rfl
  change Pts 3 st1.lp.Mem = _ at hf
  rw [hf] at hin
  -- all points of the hull are on the line `x = ε τ y / 2`
  have hline : convexHull ℝ (Pts 3 lp.Mem ∪ Pts 3 fun z => ∃ x u, ∃ e : ℕ → ℝ, lp.Mem x ∧ Admissible (tinyMode ε) u ∧
      (∀ i < 3, |e i| ≤ 0) ∧ ∀ i < 3, z i = mulV 3 ((dynOf (tinyA ε) none τ).ex 1).e x i +
        τ * inputAt (tinyMode ε) u i + e i) ⊆ {v : Fin 3 → ℝ | v 0 = ε * τ / 2 * v 1} := by
    refine convexHull_min ?_ ?_
    · rintro v (⟨x, hx, hv⟩ | ⟨z, ⟨x, u, e, hx, -, he, hz⟩, hv⟩)
      · obtain ⟨e0, e1, -⟩ := (hmem x).1 hx
        have v0 := hv 0
        have v1 := hv 1
        simp [e0, e1] at v0 v1
        simp [v0, v1]
      · obtain ⟨v', e', -, he', hw⟩ := whole_step (tinyMode_real ε) hτ (le_refl (0 : ℝ))
          (by intro u _ i _; simp [inputAt, tinyMode]) (tiny_moves ε τ) (le_refl (0 : ℝ)) (by rw [zero_add])
        have hx' : ∀ i < 3, x i = tinyW ε 0 i := by
          obtain ⟨e0, e1, e2⟩ := (hmem x).1 hx
          intro i hi
          interval_cases i <;> simp [tinyW, e0, e1, e2]
        have hzw : ∀ i < 3, z i = tinyW ε τ i := by
          intro i hi
          have h3 := he' i hi
          have h4 := hw i hi
          simp only [zero_div, mul_zero] at h3
          rw [zero_add] at h4
          rw [h4, hz i hi, abs_nonpos_iff.1 h3, abs_nonpos_iff.1 (he i hi)]
          have : mulV 3 ((dynOf (tinyA ε) none τ).ex 1).e x i = mulV 3 ((dynOf (tinyA ε) none τ).ex 1).e (tinyW ε 0) i :=
            Finset.sum_congr rfl fun j hj => by rw [hx' j (Finset.mem_range.1 hj)]
          rw [this]
          simp [inputAt, tinyMode]
          rfl
        have v0 := (hv 0).trans (hzw 0 (by norm_num))
        have v1 := (hv 1).trans (hzw 1 (by norm_num))
        simp [tinyW] at v0 v1
        show v 0 = ε * τ / 2 * v 1
        rw [v0, v1]; ring
    · rw [convex_iff_forall_pos]
      intro p hp q hq s t _ _ _
      simp only [Set.mem_setOf_eq, Pi.add_apply, Pi.smul_apply, smul_eq_mul] at hp hq ⊢
      rw [hp, hq]; ring
  have := hline hin
  simp [tinyW] at this
  have hp : 0 < ε * τ := mul_pos h0 hτ
  nlinarith

end Hylaa
