import Verif.Props.RunEx
import Verif.Props.Invariant
import Verif.Props.Query
import Verif.Props.Chull
import Verif.Props.Agg
import Verif.Props.Guard
import Verif.Props.Ops
import Verif.Props.OpsEx
import Verif.Props.Reach

/-!
# Non-vacuity, by running the model in the kernel

`[0, 1]` goes to `[-1, 3]` by `x ↦ 2 x + u`, `u ∈ [-1, 1]`; then the operations of the properties are applied
to it.
-/

set_option linter.unusedSectionVars false

namespace Hylaa
open Spec

/-- The honest solver used. -/
def exS : Solver ℚ := Simplex.solver 50

theorem exS_honest : exS.Honest := Simplex.honest 50

structure ExData where
  lp0 : Lp ℚ
  s1 : Sys ℚ
  s2 : Sys ℚ
  inp3 : Bool
  inp4 : Bool
  center : Lp ℚ × Option (List ℚ)
  cut : Lp ℚ × Option Bool
  far : Lp ℚ × Option Bool
  guard : Lp ℚ × Option (Lp ℚ)
  reset : Sys ℚ
  mink : Sys ℚ
  hull : Lp ℚ
  agg : List (Lp ℚ) × Lp ℚ
  con : Sys ℚ × ℕ
  rep : Lp ℚ × ℕ × Bool
  notRep : Lp ℚ × ℕ × Bool
  sol : Lp ℚ × Option (List ℚ)

/-- Everything in one run. -/
def exData : Except Err ExData := do
  let lp0 ← fromBox exS [(0, 1)] exModeU
  let s1 ← setBasisMatrix lp0.toSys (mat1 2)
  let s2 ← addInputEffects s1 (mat1 1) exModeU none
  let lp : Lp ℚ := { lp0 with toSys := s2 }
  let inp3 ← isPointInLpi exS [3] lp
  let inp4 ← isPointInLpi exS [4] lp
  let center ← getBoxCenter exS lp
  let cut ← checkIntersection exS lp ⟨1, [(0, -1)], -2⟩ (1 / 10)
  let far ← checkIntersection exS lp ⟨1, [(0, -1)], -5⟩ (1 / 10)
  let guard ← guardIntersection exS lp (⟨1, [[(0, -1)]]⟩, [-2])
  let reset ← addResetVariables lp.toSys 0 0 (some ⟨1, [[(0, 2)]]⟩) none none none true
  let mink ← addResetVariables lp.toSys 0 0 (some ⟨1, [[(0, 2)]]⟩) (some ⟨1, [[(0, 1)]]⟩)
    (some ⟨1, [[(0, 1)], [(0, -1)]]⟩) (some [1, 0]) true
  let hull ← aggregateChull exS 1000000 [lp0, lp] exModeU
  let agg ← aggregate exS (1 / 100) [lp0, lp] [[1]] 1 exModeU
  let con ← addInitConstraint lp0.toSys [1] (1 / 2) (mat1 1) none none
  let lp1 : Lp ℚ := { lp0 with toSys := con.1 }
  let rep ← tryReplaceInitConstraint exS 1000000 lp1 con.2 [1] (1 / 4) (mat1 1) none
  let notRep ← tryReplaceInitConstraint exS 1000000 lp1 con.2 [-1] (-1 / 4) (mat1 1) none
  let sol ← minimize exS lp (some [1]) (some [lp.cur]) true
  return ⟨lp0, s1, s2, inp3, inp4, center, cut, far, guard, reset, mink, hull, agg, con, rep, notRep, sol⟩

set_option maxRecDepth 100000 in
theorem exData_ok : okAnd exData (fun d => d.inp3 && !d.inp4 && decide (d.center.2 = some [1]) &&
    decide (d.cut.2 = some true) && decide (d.far.2 = some false) && d.guard.2.isSome &&
    decide (d.rep.2 = (d.con.2, true)) && decide (d.notRep.2 = (d.con.2, false)) &&
    decide (d.sol.2 = some [-1])) = true := by
  decide +kernel

/-- What was computed. -/
structure ExFacts (d : ExData) : Prop where
  box : fromBox exS [(0, 1)] exModeU = .ok d.lp0
  h0 : Hist exS d.lp0 (Rep.ofSet 1 (Typed (⟨1, [[(0, -1)], [(0, 1)]]⟩ : Csr ℚ) [.up, .up] [-0, 1])) []
  h2 : ∃ ρ, Hist exS { d.lp0 with toSys := d.s2 } ρ []
  dims0 : d.lp0.dims = 1
  dims2 : d.s2.dims = 1
  cur2 : d.s2.cur = 1
  lo0 : RowType.lo ∉ d.lp0.getTypes
  lo2 : RowType.lo ∉ d.s2.getTypes
  set : ∀ x, d.s2.Mem x ↔ -1 ≤ x 0 ∧ x 0 ≤ 3
  in3 : isPointInLpi exS [3] { d.lp0 with toSys := d.s2 } = .ok true
  in4 : isPointInLpi exS [4] { d.lp0 with toSys := d.s2 } = .ok false
  center : ∃ lp', getBoxCenter exS { d.lp0 with toSys := d.s2 } = .ok (lp', some [1])
  cut : ∃ lp', checkIntersection exS { d.lp0 with toSys := d.s2 } ⟨1, [(0, -1)], -2⟩ (1 / 10) =
    .ok (lp', some true)
  far : ∃ lp', checkIntersection exS { d.lp0 with toSys := d.s2 } ⟨1, [(0, -1)], -5⟩ (1 / 10) =
    .ok (lp', some false)
  guard : ∃ lp' t, guardIntersection exS { d.lp0 with toSys := d.s2 } (⟨1, [[(0, -1)]]⟩, [-2]) =
    .ok (lp', some t)
  reset : addResetVariables d.s2 0 0 (some ⟨1, [[(0, 2)]]⟩) none none none true = .ok d.reset
  mink : addResetVariables d.s2 0 0 (some ⟨1, [[(0, 2)]]⟩) (some ⟨1, [[(0, 1)]]⟩)
    (some ⟨1, [[(0, 1)], [(0, -1)]]⟩) (some [1, 0]) true = .ok d.mink
  hull : aggregateChull exS 1000000 [d.lp0, { d.lp0 with toSys := d.s2 }] exModeU = .ok d.hull
  agg : aggregate exS (1 / 100) [d.lp0, { d.lp0 with toSys := d.s2 }] [[1]] 1 exModeU = .ok d.agg
  con : addInitConstraint d.lp0.toSys [1] (1 / 2) (mat1 1) none none = .ok d.con
  rep : ∃ lp', tryReplaceInitConstraint exS 1000000 { d.lp0 with toSys := d.con.1 } d.con.2 [1] (1 / 4)
    (mat1 1) none = .ok (lp', d.con.2, true)
  notRep : ∃ lp', tryReplaceInitConstraint exS 1000000 { d.lp0 with toSys := d.con.1 } d.con.2 [-1] (-1 / 4)
    (mat1 1) none = .ok (lp', d.con.2, false)
  sol : ∃ lp', minimize exS { d.lp0 with toSys := d.s2 } (some [1]) (some [1]) true = .ok (lp', some [-1])

set_option maxRecDepth 100000 in
theorem exTypes_ok : okAnd exData (fun d => decide (RowType.lo ∉ d.lp0.getTypes) &&
    decide (RowType.lo ∉ d.s2.getTypes) && decide (d.s2.cur = 1)) = true := by
  decide +kernel

theorem exBoxMem {lp : Lp ℚ} (h : fromBox exS [(0, 1)] exModeU = .ok lp) (x : ℕ → ℚ) :
    lp.Mem x ↔ 0 ≤ x 0 ∧ x 0 ≤ 1 := by
  refine (C01_from_box h x).trans ⟨fun h => h 0 (by simp), fun h i hi => ?_⟩
  simp at hi; subst hi; exact h

theorem exFacts : ∃ d, exData = .ok d ∧ ExFacts d := by
  obtain ⟨d, h, hd⟩ := okAnd_ok exData_ok
  obtain ⟨d', h', ht⟩ := okAnd_ok exTypes_ok
  obtain rfl : d' = d := by rw [h] at h'; cases h'; rfl
  refine ⟨d', h, ?_⟩
  simp only [exData, bind_ok, pure_ok] at h
  obtain ⟨lp0, k1, s1, k2, s2, k3, i3, k4, i4, k5, c, k6, cu, k7, fa, k8, g, k9, re, k10, mi, k11, hu, k12, ag,
    k13, co, k14, rp, k15, nr, k16, so, k17, rfl⟩ := h
  simp only [Bool.and_eq_true, decide_eq_true_eq, Bool.not_eq_true'] at hd ht
  obtain ⟨⟨⟨⟨⟨⟨⟨⟨e1, e2⟩, e3⟩, e4⟩, e5⟩, e6⟩, e7⟩, e8⟩, e9⟩ := hd
  have kb := k1
  simp only [fromBox, bind_ok, assert_ok] at kb
  obtain ⟨_, -, kb⟩ := kb
  have hH := Hist.construct kb (by simp) (boxCsr_wf [((0 : ℚ), 1)])
  obtain ⟨-, -, -, -, -, hdim, -, -, hie, -⟩ := fromConstraints_ok kb (by simp)
  have hH1 := Hist.setBasis hH k2
  have hH2 := Hist.addInput hH1 k3 rfl (Or.inl rfl)
  obtain ⟨B, X, R, hsh⟩ := ((Inst.hist hH).inv exS_honest).2.2.2 rfl
  have hv1 := (setBasisMatrix_shape k2 hsh).2.1
  have hv2 := (addInputEffects_shape k3 rfl (setBasisMatrix_shape k2 hsh).1).2.1
  have hd0 : lp0.dims = 1 := hdim
  have hd1 : s1.dims = 1 := by rw [hv1.dims, hd0]
  have hC4 := C04_set_basis_matrix exS_honest (Inst.hist hH) [] (mat1 2) (s := s1)
    (by simp only [List.nil_append, List.foldlM_cons, List.foldlM_nil]; rw [k2]; rfl)
  have hm1 : ∀ x, s1.Mem x ↔ 0 ≤ x 0 ∧ x 0 ≤ 2 := by
    intro x
    refine (hH1.mem exS_honest x).trans ?_
    unfold Rep.Mem Rep.val
    simp only [Rep.setBasis, Rep.ofSet, mat1, inSum]
    constructor
    · rintro ⟨y, u, ⟨z, hz, hyz⟩, hx⟩
      have h0 := hz 0 (by simp)
      have h1 := hz 1 (by simp)
      have h2 := hx 0 (by simp)
      have h3 := hyz 0 (by simp)
      simp [Csr.row] at h0 h1 h2
      rw [h2, h3]
      constructor <;> linarith
    · rintro ⟨h1, h2⟩
      refine ⟨fun _ => x 0 / 2, fun _ _ => 0, ⟨fun _ => x 0 / 2, ?_, fun _ _ => rfl⟩, ?_⟩
      · intro i hi
        rcases i with _ | _ | i
        · simp [Csr.row]; linarith
        · simp [Csr.row]; linarith
        · simp at hi
      · intro i hi
        simp at hi; subst hi; simp; ring
  have hC := C05_add_input_effects exS_honest (Inst.hist hH1) (inp := exInputs) rfl k3
  refine ⟨k1, hH, ⟨_, hH2⟩, hd0, by rw [hv2.dims, hd1], ht.2, ht.1.1, ht.1.2, fun x => (hC x).trans ?_, ?_, ?_,
    ⟨c.1, ?_⟩, ⟨cu.1, ?_⟩, ⟨fa.1, ?_⟩, ?_, k10, k11, k12, k13, k14, ⟨rp.1, ?_⟩, ⟨nr.1, ?_⟩, ⟨so.1, ?_⟩⟩
  · unfold AddImage mulV
    simp only [hd1, exInputs_ok]
    constructor
    · rintro ⟨z, u, hz, hu, hx⟩
      have hz := (hm1 z).1 hz
      have hx := hx 0 (by simp)
      simp [exInputs, mat1] at hx
      rw [hx]; constructor <;> linarith [hz.1, hz.2, hu.1, hu.2]
    · rintro ⟨h1, h2⟩
      by_cases hx : x 0 ≤ 1
      · refine ⟨fun _ => max 0 (x 0), fun _ => x 0 - max 0 (x 0), (hm1 _).2 ?_, ?_, ?_⟩
        · simp; linarith
        · rcases le_total 0 (x 0) with h | h
          · simp [h]
          · simp [h]; constructor <;> linarith
        · intro i hi; simp at hi; subst hi; simp [exInputs, mat1]
      · refine ⟨fun _ => min 2 (x 0), fun _ => x 0 - min 2 (x 0), (hm1 _).2 ?_, ?_, ?_⟩
        · simp; linarith
        · rcases le_total 2 (x 0) with h | h
          · simp [h]; constructor <;> linarith
          · simp [h]
        · intro i hi; simp at hi; subst hi; simp [exInputs, mat1]
  · rw [k4, e1]
  · rw [k5, e2]
  · rw [k6, ← e3]
  · rw [k7, ← e4]
  · rw [k8, ← e5]
  · obtain ⟨t, ht⟩ := Option.isSome_iff_exists.1 e6
    exact ⟨g.1, t, by rw [k9, ← ht]⟩
  · rw [k15, ← e7]
  · rw [k16, ← e8]
  · rw [ht.2] at k17; rw [k17, ← e9]

/-- **C10** on the example: `[-1, 3]` meets `x ≥ 2` with a margin, and not `x ≥ 5`. -/
example : ∃ (lp : Lp ℚ), Inst exS lp true ∧ (∃ x, lp.Mem x ∧ -x 0 + 1 / 10 ≤ -2) ∧
    ∀ x, lp.Mem x → -5 < -x 0 + 1 / 10 := by
  obtain ⟨d, -, f⟩ := exFacts
  obtain ⟨ρ, hρ⟩ := f.h2
  obtain ⟨l1, h1⟩ := f.cut
  obtain ⟨l2, h2⟩ := f.far
  have a := ((C10_check_intersection exS_honest (Inst.hist hρ) (by simp) (by simp) h1).2.2.1).1 rfl
  have b := (((C10_check_intersection exS_honest (Inst.hist hρ) (by simp) (by simp) h2).2.2.2).1 rfl).2
  refine ⟨_, Inst.hist hρ, ?_, ?_⟩
  · simpa using a
  · simpa using b

/-- **C11** on the example: the intersection of `[-1, 3]` with `x ≥ 2` is `[2, 3]`. -/
example : ∃ (lp t : Lp ℚ) (lp' : Lp ℚ), Inst exS lp true ∧
    guardIntersection exS lp (⟨1, [[(0, -1)]]⟩, [-2]) = .ok (lp', some t) ∧
    ∀ x, t.Mem x ↔ 2 ≤ x 0 ∧ x 0 ≤ 3 := by
  obtain ⟨d, -, f⟩ := exFacts
  obtain ⟨ρ, hρ⟩ := f.h2
  obtain ⟨lp', t, h⟩ := f.guard
  refine ⟨_, t, lp', Inst.hist hρ, h, fun x => ?_⟩
  have hg : GuardOk ((⟨1, [[(0, -1)]]⟩, [-2]) : Csr ℚ × List ℚ) := ⟨rfl, by simp [Csr.WF], by simp⟩
  refine (((C11_guard_intersection exS_honest (Inst.hist hρ) hg h).2.2 t rfl).2 x).trans ?_
  rw [show ({ d.lp0 with toSys := d.s2 } : Lp ℚ).Mem x ↔ -1 ≤ x 0 ∧ x 0 ≤ 3 from f.set x]
  simp [Csr.le, Csr.row]
  constructor
  · rintro ⟨⟨-, h1⟩, h2⟩; exact ⟨by linarith, h1⟩
  · rintro ⟨h1, h2⟩; exact ⟨⟨by linarith, h2⟩, by linarith⟩

/-- **C12** on the example: the reset `x := 2 x` gives `[-2, 6]`, with `w ∈ [0, 1]` added `[-2, 7]`. -/
example : ∃ (lp : Lp ℚ) (s s' : Sys ℚ), Inst exS lp true ∧
    addResetVariables lp.toSys 0 0 (some ⟨1, [[(0, 2)]]⟩) none none none true = .ok s ∧
    addResetVariables lp.toSys 0 0 (some ⟨1, [[(0, 2)]]⟩) (some ⟨1, [[(0, 1)]]⟩)
      (some ⟨1, [[(0, 1)], [(0, -1)]]⟩) (some [1, 0]) true = .ok s' ∧
    s.Mem (fun _ => 6) ∧ ¬ s.Mem (fun _ => 7) ∧ s'.Mem (fun _ => 7) := by
  obtain ⟨d, -, f⟩ := exFacts
  obtain ⟨ρ, hρ⟩ := f.h2
  have a := fun x => (C12_reset exS_honest (Inst.hist hρ) f.reset (by simp [f.dims2]) (by simp)
    (by simp [Csr.WF]) (by simp) x).2.2
  have b := fun x => (C12_reset_minkowski exS_honest (Inst.hist hρ) f.mink (by simp [f.dims2]) (by simp)
    (by simp [Csr.WF]) (by simp [Csr.WF]) (by simp [Csr.WF]) rfl x).2.2
  refine ⟨_, d.reset, d.mink, Inst.hist hρ, f.reset, f.mink, (a _).2 ⟨fun _ => 3, (f.set _).2 (by norm_num), ?_⟩,
    fun h => ?_, (b _).2 ⟨fun _ => 3, fun _ => 1, (f.set _).2 (by norm_num), ?_, ?_⟩⟩
  · intro i hi
    obtain rfl : i = 0 := by simpa [Csr.nrows] using hi
    norm_num [Csr.row]
  · obtain ⟨y, hy, hx⟩ := (a _).1 h
    have := hx 0 (by simp [Csr.nrows])
    have hy := (f.set y).1 hy
    simp [Csr.row] at this
    linarith [hy.2]
  · intro i hi
    rcases i with _ | _ | i
    · simp [Csr.row]
    · simp [Csr.row]
    · simp at hi
  · intro i hi
    obtain rfl : i = 0 := by simpa [Csr.nrows] using hi
    norm_num [Csr.row]

/-- **C13** and **C14** on the example: the hull and the template hull of `[0, 1]` and `[-1, 3]`. -/
example : ∃ (lps : List (Lp ℚ)) (rv : Lp ℚ) (r : List (Lp ℚ) × Lp ℚ), lps.length = 2 ∧
    (∀ l ∈ lps, ∃ live, Inst exS l live) ∧ aggregateChull exS 1000000 lps exModeU = .ok rv ∧
    aggregate exS (1 / 100) lps [[1]] 1 exModeU = .ok r ∧
    Pts 1 rv.Mem = convexHull ℚ (⋃ l ∈ lps, Pts 1 l.Mem) ∧ r.2.Mem (fun _ => 3) := by
  obtain ⟨d, -, f⟩ := exFacts
  obtain ⟨ρ, hρ⟩ := f.h2
  have hin : ∀ l ∈ [d.lp0, { d.lp0 with toSys := d.s2 }], ∃ live, Inst exS l live := by
    intro l hl
    simp only [List.mem_cons, List.not_mem_nil, or_false] at hl
    rcases hl with rfl | rfl
    · exact ⟨true, Inst.hist f.h0⟩
    · exact ⟨true, Inst.hist hρ⟩
  have hb := exBoxMem f.box
  refine ⟨_, d.hull, d.agg, rfl, hin, f.hull, f.agg, ?_, ?_⟩
  · refine (C14_aggregate_chull exS_honest (n := 1) hin ?_ ?_ f.hull).2.2 ?_
    · intro l hl
      simp only [List.mem_cons, List.not_mem_nil, or_false] at hl
      rcases hl with rfl | rfl
      · exact f.dims0
      · exact f.dims2
    · intro l hl
      simp only [List.mem_cons, List.not_mem_nil, or_false] at hl
      rcases hl with rfl | rfl
      · exact f.lo0
      · exact f.lo2
    · intro l hl
      simp only [List.mem_cons, List.not_mem_nil, or_false] at hl
      rcases hl with rfl | rfl
      · refine ⟨⟨fun _ => 0, (hb _).2 (by norm_num)⟩, 10, fun x hx i hi => ?_⟩
        have := (hb x).1 hx
        obtain rfl : i = 0 := by omega
        rw [abs_le]; constructor <;> linarith [this.1, this.2]
      · refine ⟨⟨fun _ => 0, (f.set _).2 (by norm_num)⟩, 10, fun x hx i hi => ?_⟩
        have := (f.set x).1 hx
        obtain rfl : i = 0 := by omega
        rw [abs_le]; constructor <;> linarith [this.1, this.2]
  · exact (C13_aggregate exS_honest hin (by simp) (lps' := d.agg.1) (rv := d.agg.2) f.agg).2.1 { d.lp0 with toSys := d.s2 } (by simp) _
      ((f.set _).2 (by norm_num))

/-- **C09** on the example: `x ≤ 1/2` is replaced by `x ≤ 1/4`, and not by `x ≥ 1/4`. -/
example : ∃ (lp lp' lp'' : Lp ℚ) (ρ : Rep ℚ) (row : ℕ), Hist exS lp ρ [row] ∧
    tryReplaceInitConstraint exS 1000000 lp row [1] (1 / 4) (mat1 1) none = .ok (lp', row, true) ∧
    tryReplaceInitConstraint exS 1000000 lp row [-1] (-1 / 4) (mat1 1) none = .ok (lp'', row, false) ∧
    lp.Mem (fun _ => 1 / 2) ∧ ¬ lp'.Mem (fun _ => 1 / 2) ∧ lp'.Mem (fun _ => 1 / 4) ∧
    lp''.Mem (fun _ => 1 / 2) ∧ ¬ lp''.Mem (fun _ => 0) := by
  obtain ⟨d, -, f⟩ := exFacts
  obtain ⟨l1, h1⟩ := f.rep
  obtain ⟨l2, h2⟩ := f.notRep
  have hb := exBoxMem f.box
  have hcon : addInitConstraint d.lp0.toSys [1] (1 / 2) (mat1 1) none none = .ok (d.con.1, d.con.2) := f.con
  have hH := Hist.addInit f.h0 hcon rfl (by simp) (by simp)
  have hB : ∀ i < 1, ∀ j < 1, (mat1 1).e i j = if i = j then (1 : ℚ) else 0 := by
    intro i hi j hj
    obtain rfl : i = 0 := by omega
    obtain rfl : j = 0 := by omega
    simp [mat1]
  have a := C08_add_init_constraint exS_honest f.h0 (a := [1]) (b := 1 / 2) (bm := mat1 1) (ies := none) rfl hB
    rfl (by simp [Rep.ofSet]) hcon
  have b := fun x => (C09_try_replace_init_constraint exS_honest hH (by simp) rfl hB rfl
    (by simp [Rep.ofSet, Rep.addInit]) h1 x).1
  have c := fun x => (C09_try_replace_init_constraint exS_honest hH (by simp) rfl hB rfl
    (by simp [Rep.ofSet, Rep.addInit]) h2 x).1
  have hmid : ({ d.lp0 with toSys := d.con.1 } : Lp ℚ).Mem (fun _ => 1 / 2) :=
    (a _).2 ⟨(hb _).2 (by norm_num), by norm_num [dotN, Rep.ofSet]⟩
  have hmid4 : ({ d.lp0 with toSys := d.con.1 } : Lp ℚ).Mem (fun _ => 1 / 4) :=
    (a _).2 ⟨(hb _).2 (by norm_num), by norm_num [dotN, Rep.ofSet]⟩
  refine ⟨_, l1, l2, _, d.con.2, hH, h1, h2, hmid, fun h => ?_, (b _).2 ⟨hmid4, ?_⟩, (c _).2 ⟨hmid, ?_⟩, fun h => ?_⟩
  · have := ((b _).1 h).2
    norm_num [dotN, Rep.ofSet, Rep.addInit] at this
  · norm_num [dotN, Rep.ofSet, Rep.addInit]
  · norm_num [dotN, Rep.ofSet, Rep.addInit]
  · have := ((c _).1 h).2
    norm_num [dotN, Rep.ofSet, Rep.addInit] at this

/-- **C19** and **C20** on the example: the centre of `[-1, 3]` is 1; 3 is in the set, 4 is not. -/
example : ∃ (lp lp' : Lp ℚ), Inst exS lp true ∧ getBoxCenter exS lp = .ok (lp', some [1]) ∧
    isPointInLpi exS [3] lp = .ok true ∧ isPointInLpi exS [4] lp = .ok false ∧
    (∃ lo hi, IsRange lp.Mem 0 lo hi ∧ 1 = (lo + hi) / 2) ∧ (∃ x, lp.Mem x ∧ x 0 = 3) ∧
    ¬ ∃ x, lp.Mem x ∧ x 0 = 4 := by
  obtain ⟨d, -, f⟩ := exFacts
  obtain ⟨ρ, hρ⟩ := f.h2
  obtain ⟨lp', h⟩ := f.center
  have hI := Inst.hist hρ
  refine ⟨_, lp', hI, h, f.in3, f.in4, ?_, ?_, ?_⟩
  · exact ((C19_box_center exS_honest hI (by simp [f.dims2]) h).2 _ rfl).2 0 (by simp [f.dims2])
  · obtain ⟨x, h1, h2⟩ := (C20_is_point_in_lpi exS_honest hI f.in3).1 rfl
    exact ⟨x, h1, h2 0 (by simp)⟩
  · rintro ⟨x, h1, h2⟩
    have := (C20_is_point_in_lpi exS_honest hI f.in4).2 ⟨x, h1, fun i hi => by
      obtain rfl : i = 0 := by simpa using hi
      exact h2⟩
    cases this

/-- **C22** on the example: the smallest value of `x` over `[-1, 3]` is reported. -/
example : ∃ (lp lp' : Lp ℚ), Inst exS lp true ∧
    minimize exS lp (some [1]) (some [1]) true = .ok (lp', some [-1]) ∧ ∀ x, lp.Mem x → -1 ≤ x 0 := by
  obtain ⟨d, -, f⟩ := exFacts
  obtain ⟨ρ, hρ⟩ := f.h2
  obtain ⟨lp', h⟩ := f.sol
  exact ⟨_, lp', Inst.hist hρ, h, fun x hx => ((f.set x).1 hx).1⟩

/-! ### Time elapse, invariants -/

/-- **C06** on the example `x' = x + u`, step 1: the requests 3, 0, 1 are all answered, with `e³` first. -/
example : ∃ rs, requests (dynOf (⟨1, [[(0, 1)]]⟩ : Csr ℝ) (some ⟨⟨1, [[(0, 1)]]⟩, ⟨0, [[]]⟩, []⟩) 1) none
      [3, 0, 1] = .ok rs ∧ rs.length = 3 ∧ ∃ h : 0 < rs.length,
    rs[0].1.e 0 0 = (NormedSpace.exp ((1 : ℝ) • aMat (⟨1, [[(0, 1)]]⟩ : Csr ℝ)) ^ 3)
      ⟨0, by simp [Csr.nrows]⟩ ⟨0, by simp [Csr.nrows]⟩ := by
  obtain ⟨rs, h1, h2, h3⟩ := C06_time_elapse (a := (⟨1, [[(0, 1)]]⟩ : Csr ℝ)) (τ := 1)
    (inp := some ⟨⟨1, [[(0, 1)]]⟩, ⟨0, [[]]⟩, []⟩) (by simp) [3, 0, 1]
  have h : 0 < rs.length := by rw [h2]; simp
  exact ⟨rs, h1, h2, h, (h3 0 (by simp) h).basis ⟨0, by simp [Csr.nrows]⟩ ⟨0, by simp [Csr.nrows]⟩⟩

/-- `x ↦ x/2 + u`, `u ∈ [-1, 1]`, no invariant -/
def exFree : Mode ℚ :=
  { name := "f", id := 0, a := some ⟨1, [[(0, 1)]]⟩, inputs := some exInputs }

def exSteps : Except Err (Lp ℚ × SS ℚ × Option (TE ℚ) × SS ℚ) := do
  let lp ← fromBox exS [(0, 1)] exFree
  let st ← SS.make (exEnv 1 1 none).T exFree 0 lp (0, 0) [] true
  let r ← takeSteps exHalf exFree none st [none, some 3]
  return (lp, st, r.1, r.2)

set_option maxRecDepth 100000 in
theorem exSteps_ok : okAnd exSteps (fun d => decide (d.2.2.2.stepIn = 3)) = true := by
  decide +kernel

/-- **C07** on the example: one step and a jump to step 3; the point reached from 1 by `u = 1` all the time
is in the set. -/
example : ∃ (lp : Lp ℚ) (st st' : SS ℚ) (te' : Option (TE ℚ)),
    SS.make (exEnv 1 1 none).T exFree 0 lp (0, 0) [] true = .ok st ∧
    takeSteps exHalf exFree none st [none, some 3] = .ok (te', st') ∧ st'.lp.Mem fun _ => 15 / 8 := by
  obtain ⟨d, h, hd⟩ := okAnd_ok exSteps_ok
  simp only [exSteps, bind_ok, pure_ok] at h
  obtain ⟨lp, k1, st, k2, r, k3, rfl⟩ := h
  simp only [decide_eq_true_eq] at hd
  have kb := k1
  simp only [fromBox, bind_ok, assert_ok] at kb
  obtain ⟨_, -, kb⟩ := kb
  have hH := Hist.construct kb (by simp) (boxCsr_wf [((0 : ℚ), 1)])
  have hfor : exHalf.For exFree :=
    ⟨exHalf_for.laws, ⟨by simp [exFree], by simp [exFree], by simp [exFree]⟩, exHalf_for.pos, exHalf_for.inp,
      by simp [exHalf]⟩
  refine ⟨lp, st, r.2, r.1, k2, k3, ?_⟩
  have := (C07_steps_reachable exS_honest hfor (a := ⟨1, [[(0, 1)]]⟩) rfl rfl rfl (X := _) (rows := []) hH k2 k3).2
  refine (this _).2 ⟨fun _ => 1, (C01_from_box k1 _).2 ?_, ?_⟩
  · intro i hi
    simp at hi; subst hi; simp
  · rw [hd]
    have one : ∀ a b : ℚ, b = a / 2 + 1 → OneStep exFree exHalf (fun _ => a) (fun _ => b) := by
      intro a b hab
      refine ⟨fun _ => 1, fun inp hi => ?_, fun i hi => ?_⟩
      · cases hi; exact (exInputs_ok _).2 (by norm_num)
      · obtain rfl : i = 0 := by simpa [exHalf] using hi
        simp [exHalf, mulV, inputPart, mat1, hab]; ring
    have inv : ∀ a : ℚ, InvEps 0 exFree fun _ => a := fun a lc h => by simp [exFree] at h
    exact .step (.step (.step (.zero fun _ _ => rfl) (inv _) (one 1 (3 / 2) (by norm_num))) (inv _)
      (one (3 / 2) (7 / 4) (by norm_num))) (inv _) (one (7 / 4) (15 / 8) (by norm_num))

def exUp : Mode ℚ :=
  { name := "up", id := 0, a := some ⟨2, [[(1, 1)], []]⟩, inv := [⟨2, [(0, 1)], 3 / 2⟩] }

/-- Two rounds in the mode `x' = c` with the invariant `x ≤ 3/2`. -/
def exRounds : Except Err (Lp ℚ × SS ℚ × SS ℚ) := do
  let lp ← fromBox exS [(0, 1), (1, 1)] exUp
  let st0 ← SS.make (exEnv 1 1 none).T exUp 0 lp (0, 0) [] true
  let a ← SS.intersectInvariant exS (exEnv 1 1 none).T exUp st0
  let b ← a.1.step (exDyn 1) exUp none none
  let c ← SS.intersectInvariant exS (exEnv 1 1 none).T exUp b.2
  let e ← c.1.step (exDyn 1) exUp b.1 none
  assert (a.2.1 = true ∧ c.2.1 = true)
  return (lp, st0, e.2)

set_option maxRecDepth 100000 in
theorem exRounds_ok : okAnd exRounds (fun d => decide (d.2.2.stepIn = 2)) = true := by
  decide +kernel

/-- **C42** on the example: after two rounds `x = 5/2` is in the set and `x = 11/4` is not. -/
example : ∃ (m : Mode ℚ) (lp : Lp ℚ) (st0 st : SS ℚ) (te : Option (TE ℚ)), m.inv ≠ [] ∧
    fromBox exS [(0, 1), (1, 1)] m = .ok lp ∧
    SS.make (exEnv 1 1 none).T m 0 lp (0, 0) [] true = .ok st0 ∧
    Evolved exS (exEnv 1 1 none).T (exDyn 1) m none st0 2 te st ∧
    st.lp.Mem (fun i => if i = 0 then 5 / 2 else 1) ∧ ¬ st.lp.Mem (fun i => if i = 0 then 11 / 4 else 1) := by
  obtain ⟨d, h, hd⟩ := okAnd_ok exRounds_ok
  simp only [exRounds, bind_ok, pure_ok, assert_ok] at h
  obtain ⟨lp, k1, st0, k2, a, k3, b, k4, c, k5, e, k6, _, ⟨k7, k8⟩, rfl⟩ := h
  have hE := Evolved.round (Evolved.round Evolved.start (ops := a.2.2) (by rw [k3, ← k7]) k4)
    (ops := c.2.2) (by rw [k5, ← k8]) k6
  have kb := k1
  simp only [fromBox, bind_ok, assert_ok] at kb
  obtain ⟨_, -, kb⟩ := kb
  have hH := Hist.construct kb (by simp) (boxCsr_wf [((0 : ℚ), 1), (1, 1)])
  have hfor : (exDyn 1).For exUp :=
    ⟨exDyn_laws _, ⟨by simp [exDyn, exUp], by simp [exDyn, exUp], by simp [exUp]⟩, by simp [exDyn], by simp [exDyn], by simp [exUp]⟩
  have hC := C42_invariant_partial exS_honest (T := (exEnv 1 1 none).T) (by norm_num [exEnv]) hfor rfl rfl
    (Or.inl rfl) (rows := []) hH k2 hE
  have hone : ∀ x z : ℕ → ℚ, OneStep exUp
      (exDyn 1) x z ↔ z 0 = x 0 + x 1 ∧ z 1 = x 1 := by
    intro x z
    constructor
    · rintro ⟨u, -, hz⟩
      have h0 := hz 0 (by simp [exDyn])
      have h1 := hz 1 (by simp [exDyn])
      simp [exDyn, mulV, inputPart, Finset.sum_range_succ] at h0 h1
      exact ⟨h0, h1⟩
    · rintro ⟨h0, h1⟩
      refine ⟨fun _ => 0, by simp [Admissible, exUp], fun i hi => ?_⟩
      have : i < 2 := hi
      obtain rfl | rfl : i = 0 ∨ i = 1 := by omega
      · simp [exDyn, mulV, inputPart, Finset.sum_range_succ, h0]
      · simp [exDyn, mulV, inputPart, Finset.sum_range_succ, h1]
  refine ⟨_, lp, st0, e.2, e.1, by simp [exUp], k1, k2, hE, ?_, fun hz => ?_⟩
  · refine hC.1 (fun i => if i = 0 then 1 / 2 else 1) _ ((C01_from_box k1 _).2 ?_) ?_
    · intro i hi
      simp at hi
      obtain rfl | rfl : i = 0 ∨ i = 1 := by omega
      · norm_num
      · norm_num
    · refine .step (y := fun i => if i = 0 then 3 / 2 else 1) (.step (y := fun i => if i = 0 then 1 / 2 else 1)
        (.zero fun _ _ => rfl) ?_ ((hone _ _).2 (by norm_num))) ?_ ((hone _ _).2 (by norm_num))
      · intro lc hlc; simp [exUp] at hlc; subst hlc; norm_num
      · intro lc hlc; simp [exUp] at hlc; subst hlc; norm_num
  · obtain ⟨x, -, hf⟩ := hC.2.1 _ hz
    cases hf with
    | step hf hinv ho =>
      have h1 := (hone _ _).1 ho
      have h2 := hinv ⟨2, [(0, 1)], 3 / 2⟩ (by simp [exUp])
      simp [exEnv] at h1 h2
      have : (5 : ℚ) / 4 * 1 ≤ 5 / 4 := by norm_num
      linarith [h1.1, h1.2]

/-- A mode in which nothing moves. -/
noncomputable def exStill : Mode ℝ := { name := "s", id := 0, a := some ⟨1, [[]]⟩ }

theorem exStill_real : ModeReal exStill ⟨1, [[]]⟩ where
  dyns := rfl
  wf := by intro r hr; simp at hr; subst hr; simp
  sq := rfl
  pos := by simp [Csr.nrows]
  inp := by simp [exStill]
  inv := ⟨by simp [exStill], by simp [exStill], by simp [exStill]⟩

/-- **C43** on the example: two rounds in that mode. -/
example : ∃ (lp : Lp ℝ) (st0 st1 st2 : SS ℝ) (te1 te2 : Option (TE ℝ)),
    fromBox (idealSolver ℝ) [(0, 1)] exStill = .ok lp ∧
    SS.make (exT ℝ) exStill 0 lp (0, 0) [] true = .ok st0 ∧
    Evolved (idealSolver ℝ) (exT ℝ) (dynOf ⟨1, [[]]⟩ exStill.inputs 1) exStill none st0 1 te1 st1 ∧
    Evolved (idealSolver ℝ) (exT ℝ) (dynOf ⟨1, [[]]⟩ exStill.inputs 1) exStill te1 st1 1 te2 st2 ∧
    ∀ z, st2.lp.Mem z → st1.lp.Mem z := by
  have hC := idealSolver_complete (K := ℝ)
  have hS := hC.toHonest
  have hd := exStill_real.dyn 1
  obtain ⟨lp, hfb⟩ := C01_from_box_accepts hC (box := [((0 : ℝ), 1)]) exStill (by norm_num)
  have hlp := hfb
  simp only [fromBox, bind_ok, assert_ok] at hlp
  obtain ⟨_, -, hlp⟩ := hlp
  have hH := Hist.construct hlp (by simp) (boxCsr_wf [((0 : ℝ), 1)])
  obtain ⟨st0, hst0⟩ := SS.make_accepts (T := exT ℝ) (le_refl _) (le_refl _) (m := exStill)
    (a := ⟨1, [[]]⟩) rfl (hH.inv hS).1 0 (0, 0) [] true
  obtain ⟨hst, hok⟩ := SS.Ok.make (ε := 0) hd rfl (hH.inv hS).1 (hH.inv hS).2.1 rfl hst0
  obtain ⟨ρ0, hρ0, -⟩ := hok.ex
  obtain ⟨te1, st1, hs1, -⟩ := hρ0.step_accepts hd (a := ⟨1, [[]]⟩) rfl rfl (te := none) (by simp)
    (by simp [exStill, dynOf])
  obtain ⟨ht1, -, -, ρ1, hρ1, -⟩ := hρ0.step hd (by simp) hs1
  obtain ⟨te2, st2, hs2, -⟩ := hρ1.step_accepts hd (a := ⟨1, [[]]⟩) rfl rfl ht1 (by simp [exStill, dynOf])
  have e1 : Evolved (idealSolver ℝ) (exT ℝ) (dynOf ⟨1, [[]]⟩ exStill.inputs 1) exStill none st0 1 te1 st1 :=
    .round .start (ops := []) rfl hs1
  have e2 : Evolved (idealSolver ℝ) (exT ℝ) (dynOf ⟨1, [[]]⟩ exStill.inputs 1) exStill te1 st1 1 te2 st2 :=
    .round .start (ops := []) rfl hs2
  exact ⟨lp, st0, st1, st2, te1, te2, hfb, hst0, e1, e2, fun z hz =>
    C43_zero_dynamics_partial hS (le_refl _) exStill_real (by simp) rfl hH hst0 e1 e2 z hz⟩

/-- **C21**: after a search for the smallest `x` and one for the largest, the objective is the latter. -/
example : ∃ lp lp' lp'' : Lp ℚ, lp.setMinDir [1] = .ok lp' ∧ lp'.setMinDir [-1] = .ok lp'' ∧
    (DirHist exS lp fun _ => 0) ∧ ∀ j, lp''.obj j = if j = 0 then -1 else 0 := by
  have h0 : DirHist exS (Lp.new (K := ℚ)) fun _ => 0 := .new
  have h1 := DirHist.other ({ names := ["x"], dims := 1 } : Sys ℚ) h0
  obtain ⟨lp', k1⟩ : ∃ lp', ({ (Lp.new (K := ℚ)) with toSys := { names := ["x"], dims := 1 } } : Lp ℚ).setMinDir [1] =
    .ok lp' := ⟨_, rfl⟩
  obtain ⟨lp'', k2⟩ : ∃ lp'', lp'.setMinDir [-1] = .ok lp'' := by cases k1; exact ⟨_, rfl⟩
  refine ⟨_, lp', lp'', k1, k2, h1, fun j => ?_⟩
  rw [C21_objective_is_last_direction ((h1.dense k1).dense k2) j]
  have hc : lp'.cur = 0 := by cases k1; rfl
  rcases j with _ | j
  · simp [hc]
  · simp [hc]

end Hylaa
