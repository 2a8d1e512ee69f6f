import Verif.Proofs.Total
import Verif.Props.Reach

/-!
# C42, C43: invariants with inputs, and skipping modes with zero dynamics
-/

set_option linter.unusedSectionVars false

namespace Hylaa
open Spec

section
variable {K : Type} [Field K] [LinearOrder K]

/-- The continuous evolution of one state set in its mode: creation, then repeatedly
`intersect_invariant` (still feasible) and `step`, as in core.py:222-236.
`Evolved S T d m te0 st0 k te st`: `st` is the set after `k` rounds from `st0` (`te0`, `te`: the
mode's cached time-elapse object). -/
inductive Evolved (S : Solver K) (T : Tols K) (d : Dyn K) (m : Mode K) (te0 : Option (TE K))
    (st0 : SS K) : ℕ → Option (TE K) → SS K → Prop
  | start : Evolved S T d m te0 st0 0 te0 st0
  | round {k te te' st st1 st2 ops} : Evolved S T d m te0 st0 k te st →
      SS.intersectInvariant S T m st = .ok (st1, true, ops) → st1.step d m te none = .ok (te', st2) →
      Evolved S T d m te0 st0 (k + 1) te' st2

variable [IsStrictOrderedRing K]

theorem Evolved.ok {S : Solver K} (hS : S.Honest) {T : Tols K} (hT : 0 ≤ T.inter) {d : Dyn K}
    {m : Mode K} (hd : d.For m) (hm : m.Plain) {st0 st : SS K} {k : ℕ} {te : Option (TE K)}
    {X : (ℕ → K) → Prop} (h0 : st0.Ok m d X T.inter True 0) (hk0 : st0.stepIn = 0)
    (h : Evolved S T d m none st0 k te st) :
    (∀ u, te = some u → u.Inv d) ∧ st.stepIn = k ∧ st.Ok m d X T.inter True k := by
  induction h with
  | start => exact ⟨by simp, hk0, h0⟩
  | round _ hi hs ih =>
    obtain ⟨h1, h2, h3⟩ := ih
    obtain ⟨a1, -, a3, -⟩ := h3.intersectInvariant hS hT hd hm (by omega) hi
    obtain ⟨b1, -, b3, b4⟩ := a3.step hd h1 hs
    refine ⟨b1, ?_, ?_⟩
    · rw [b3]; simp only [Option.getD_none]; rw [a1]; simp only; omega
    · exact b4.mono (by omega) fun _ => ⟨⟨trivial, .inl (by omega)⟩, .inl (by omega)⟩

/-- **C42** (modes with inputs *and* an invariant excepted, for which the property fails, see
`C42_unsound_with_inputs`).  After `k` rounds, the set contains every point reached by a trajectory
that keeps the `k` earlier samples in the invariant, and contains only points reached by
trajectories that keep them in the invariant up to the intersection tolerance.  If
`intersect_invariant` answers "infeasible", no trajectory goes on. -/
theorem C42_invariant_partial {S : Solver K} (hS : S.Honest) {T : Tols K} (hT : 0 ≤ T.inter)
    {m : Mode K} {a : Csr K} {d : Dyn K} (hd : d.For m) (ha : m.a = some a) (had : a.nrows = d.dims)
    (hm : m.inputs = none ∨ m.inv = []) {lp : Lp K} {X : (ℕ → K) → Prop} {rows : List ℕ}
    (hH : Hist S lp (Rep.ofSet d.dims X) rows) {mid : ℕ} {steps : ℕ × ℕ} {ol : List ℕ} {con : Bool}
    {st0 st : SS K} {te : Option (TE K)} {k : ℕ}
    (hmk : SS.make T m mid lp steps ol con = .ok st0) (h : Evolved S T d m none st0 k te st) :
    (∀ x z, lp.Mem x → Flow 0 m d k x z → st.lp.Mem z) ∧
    (∀ z, st.lp.Mem z → ∃ x, lp.Mem x ∧ Flow T.inter m d k x z) ∧
    ∀ st' ops, SS.intersectInvariant S T m st = .ok (st', false, ops) →
      ∀ x z, lp.Mem x → Flow 0 m d k x z → ¬ InvEps 0 m z := by
  obtain ⟨hst, hok⟩ := SS.Ok.make (ε := T.inter) hd ha (hH.inv hS).1 (hH.inv hS).2.1 had hmk
  obtain ⟨-, rfl, h3⟩ := h.ok hS hT hd hm hok (by rw [hst])
  refine ⟨fun x z hx hf => h3.mem_of_flow hd hm hx hf (.inl (le_refl _)), fun z hz => ?_,
    fun st' ops hi => (h3.intersectInvariant hS hT hd hm (by omega) hi).2.2.2 rfl⟩
  obtain ⟨x, hx, hf, -⟩ := h3.flow_of_mem hd hm trivial (le_refl _) hz
  exact ⟨x, hx, hf⟩

/-- Parameters only shrink, in any mode. -/
theorem Evolved.shrink {S : Solver K} (hS : S.Honest) {T : Tols K} (hT : 0 ≤ T.inter) {d : Dyn K}
    {m : Mode K} (hd : d.For m) {st0 st : SS K} {te0 te : Option (TE K)} {k : ℕ} {ρ0 : Rep K}
    (ht0 : ∀ u, te0 = some u → u.Inv d) (h0 : st0.Sh d ρ0)
    (h : Evolved S T d m te0 st0 k te st) :
    (∀ u, te = some u → u.Inv d) ∧ ∃ ρ, st.Sh d ρ ∧ ∀ y v, ρ.P y v → ρ0.P y v := by
  induction h with
  | start => exact ⟨ht0, ρ0, h0, fun _ _ h => h⟩
  | round _ hi hs ih =>
    obtain ⟨h1, ρ, h2, h3⟩ := ih
    obtain ⟨-, -, -, ρ1, a4, a5, -⟩ := invLoop_spec hS hT hd m.inv (fun lc hlc => hlc) h2 hi
    obtain ⟨b1, -, -, ρ2, b3, b4⟩ := a4.step hd h1 hs
    exact ⟨b1, ρ2, b3, fun y v hp => h3 y v (a5 y v ((b4 y v).1 hp).1)⟩

end

/-! ## C43 -/

section
open NormedSpace

theorem dynOf_zero {a : Csr ℝ} (h0 : ∀ r ∈ a.rows, r = []) (inp : Option (Inputs ℝ)) (τ : ℝ) (k : ℕ)
    {i j : ℕ} (hi : i < a.nrows) (hj : j < a.nrows) :
    ((dynOf a inp τ).at k).1.e i j = if i = j then 1 else 0 := by
  have hA : aMat a = 0 := by
    funext p q
    have : a.row p = [] := by
      unfold Csr.row
      have hp : (p : ℕ) < a.rows.length := p.2
      rw [List.getD_eq_getElem?_getD, List.getElem?_eq_getElem hp]
      exact h0 _ (List.getElem_mem hp)
    simp [aMat, this, coefAt]
  have hb := (dynOf_at a inp τ k).basis ⟨i, hi⟩ ⟨j, hj⟩
  rw [hA, smul_zero, exp_zero, one_pow] at hb
  simpa [Matrix.one_apply, Fin.ext_iff] using hb

/-- **C43** (modes with inputs excepted, for which the property fails, see
`C43_skips_reachable_states_with_inputs`).  In a mode whose `A` has no entries, every later set of a
state set is included in the set after its first step, which has been checked against the guards:
dropping the state set there loses nothing. -/
theorem C43_zero_dynamics_partial {S : Solver ℝ} (hS : S.Honest) {T : Tols ℝ} (hT : 0 ≤ T.inter)
    {m : Mode ℝ} {a : Csr ℝ} (hma : ModeReal m a) (h0 : ∀ r ∈ a.rows, r = [])
    (hin : m.inputs = none) {τ : ℝ} {lp : Lp ℝ} {X : (ℕ → ℝ) → Prop} {rows : List ℕ}
    (hH : Hist S lp (Rep.ofSet a.nrows X) rows) {mid : ℕ} {steps : ℕ × ℕ} {ol : List ℕ} {con : Bool}
    {st0 st1 st : SS ℝ} {te1 te : Option (TE ℝ)} {k : ℕ}
    (hmk : SS.make T m mid lp steps ol con = .ok st0)
    (h1 : Evolved S T (dynOf a m.inputs τ) m none st0 1 te1 st1)
    (hk : Evolved S T (dynOf a m.inputs τ) m te1 st1 k te st) (z : ℕ → ℝ) (hz : st.lp.Mem z) :
    st1.lp.Mem z := by
  have hd := hma.dyn τ
  obtain ⟨hst, ⟨ρ0, hρ0, -⟩, -⟩ := SS.Ok.make (ε := T.inter) hd hma.dyns (hH.inv hS).1
    (hH.inv hS).2.1 rfl hmk
  obtain ⟨ht1, ρ1, hρ1, -⟩ := h1.shrink hS hT hd (by simp) hρ0
  obtain ⟨-, ρ, hρ, hsub⟩ := hk.shrink hS hT hd ht1 hρ1
  have hval : ∀ j y v, ∀ i < a.nrows, (dynOf a m.inputs τ).val j y v i = y i := by
    intro j y v i hi
    unfold Dyn.val
    rw [Dyn.iesTo_none (by simp [dynOf, hin])]
    have hs : ∀ l ∈ Finset.range a.nrows, ((dynOf a m.inputs τ).at j).1.e i l * y l =
        if i = l then y l else 0 := by
      intro l hl
      rw [dynOf_zero h0 _ _ _ hi (Finset.mem_range.1 hl)]
      split <;> simp
    rw [show (dynOf a m.inputs τ).dims = a.nrows from rfl, Finset.sum_congr rfl hs,
      Finset.sum_ite_eq]
    simp [hi, inSum]
  obtain ⟨y, v, hp, hv⟩ := (hρ.mem z).1 hz
  refine (hρ1.mem z).2 ⟨y, v, hsub y v hp, fun i hi => ?_⟩
  rw [hv i hi, hval _ _ _ i hi, hval _ _ _ i hi]

/-- One variable, `x' = u`, `u ∈ [-1, 1]`. -/
noncomputable def exZero : Mode ℝ :=
  { name := "z", id := 0, a := some ⟨1, [[]]⟩,
    inputs := some ⟨⟨1, [[(0, 1)]]⟩, ⟨2, [[(0, 1), (1, -1)]]⟩, [1, 1]⟩ }

theorem exZero_real : ModeReal exZero ⟨1, [[]]⟩ where
  dyns := rfl
  wf := by intro r hr; simp at hr; subst hr; simp
  sq := rfl
  pos := by simp [Csr.nrows]
  inp := by
    intro p hp
    simp only [exZero, Option.some.injEq] at hp
    subst hp
    refine ⟨by norm_num, ?_⟩
    intro r hr; simp at hr; subst hr; simp
  inv := ⟨by simp [exZero], by simp [exZero], by simp [exZero]⟩

def exT (K : Type) [Field K] : Tols K := ⟨0, 0, 0, 0, 0⟩

/-- **C43 fails with inputs.** A mode whose `A` has no entries but with an input, one step of
length 1: the set after the first step, `[-1, 1]`, misses points of the set after the second one,
`[-2, 2]`, which `skip_zero_dynamics_modes` therefore never explores. -/
theorem C43_skips_reachable_states_with_inputs :
    ∃ (lp : Lp ℝ) (st0 st1 st2 : SS ℝ) (te1 te2 : Option (TE ℝ)) (z : ℕ → ℝ),
      fromBox (idealSolver ℝ) [(0, 0)] exZero = .ok lp ∧
      SS.make (exT ℝ) exZero 0 lp (0, 0) [] true = .ok st0 ∧
      takeSteps (dynOf ⟨1, [[]]⟩ exZero.inputs 1) exZero none st0 [none] = .ok (te1, st1) ∧
      takeSteps (dynOf ⟨1, [[]]⟩ exZero.inputs 1) exZero none st0 [none, none] = .ok (te2, st2) ∧
      st2.lp.Mem z ∧ ¬ st1.lp.Mem z := by
  have hC := idealSolver_complete (K := ℝ)
  have hS := hC.toHonest
  have hd := exZero_real.dyn 1
  obtain ⟨lp, hlp⟩ := C01_from_box_accepts hC (box := [((0 : ℝ), 0)]) exZero (by norm_num)
  have hm := C01_from_box hlp
  have hfb := hlp
  simp only [fromBox, bind_ok, assert_ok] at hlp
  obtain ⟨_, -, hlp⟩ := hlp
  have hH := Hist.construct hlp (by simp) (boxCsr_wf [((0 : ℝ), 0)])
  obtain ⟨-, -, -, -, -, hdim, -, -, hie, -⟩ := fromConstraints_ok hlp (by simp)
  obtain ⟨st0, hst0⟩ := SS.make_accepts (T := exT ℝ) (le_refl _) (le_refl _) (m := exZero)
    (a := ⟨1, [[]]⟩) rfl (hH.inv hS).1 0 (0, 0) [] true
  obtain ⟨hst, hok⟩ := SS.Ok.make (ε := 0) hd rfl (hH.inv hS).1 (hH.inv hS).2.1 rfl hst0
  obtain ⟨ρ0, hρ0, -⟩ := hok.ex
  have hie0 : st0.lp.ie.isSome = true := by rw [hst]; simp only; rw [hie]; rfl
  obtain ⟨te1, st1, hs1, hi1⟩ := hρ0.step_accepts hd (a := ⟨1, [[]]⟩) rfl rfl (te := none) (by simp)
    (fun _ => hie0)
  obtain ⟨ht1, -, -, ρ1, hρ1, -⟩ := hρ0.step hd (by simp) hs1
  obtain ⟨te2, st2, hs2, hi2⟩ := hρ1.step_accepts hd (a := ⟨1, [[]]⟩) rfl rfl ht1
    (fun _ => by rw [hi1]; exact hie0)
  have hr1 : takeSteps (dynOf ⟨1, [[]]⟩ exZero.inputs 1) exZero none st0 [none] = .ok (te1, st1) := by
    simp only [takeSteps, bind_ok]; exact ⟨_, hs1, rfl⟩
  have hr2 : takeSteps (dynOf ⟨1, [[]]⟩ exZero.inputs 1) exZero none st0 [none, none] =
      .ok (te2, st2) := by
    simp only [takeSteps, bind_ok]; exact ⟨_, hs1, _, hs2, rfl⟩
  have hct := fun {st' te' ts} => C07_continuous_time (st' := st') (te' := te') (ts := ts) hS
    exZero_real rfl (τ := 1) (by norm_num) hH hst0
  have hX : ∀ x, lp.Mem x ↔ x 0 = 0 := by
    intro x
    refine (hm x).trans ⟨fun h => ?_, fun h i hi => ?_⟩
    · have := h 0 (by simp)
      exact le_antisymm this.2 this.1
    · simp at hi; subst hi; simp [h]
  have hU : ∀ u : ℕ → ℝ, InputSet ⟨⟨1, [[(0, 1)]]⟩, ⟨2, [[(0, 1), (1, -1)]]⟩, [1, 1]⟩ u ↔
      u 0 ≤ 1 ∧ -u 0 ≤ 1 := by
    intro u
    unfold InputSet
    constructor
    · intro h
      have h1 := h 0 (by simp)
      have h2 := h 1 (by simp)
      simp [coefAt] at h1 h2
      exact ⟨h1, by linarith⟩
    · rintro ⟨h1, h2⟩ i hi
      simp only [List.length_cons, List.length_nil] at hi
      rcases i with _ | _ | i
      · simpa [coefAt] using h1
      · simpa [coefAt] using h2
      · omega
  -- `x(t) = c + t u` solves the equation
  have hsol : ∀ c u : ℝ, Solves (⟨1, [[]]⟩ : Csr ℝ) (fun _ i => dot ((⟨1, [[(0, 1)]]⟩ : Csr ℝ).row i)
      fun _ => u) 1 (fun t _ => c + t * u) := by
    intro c u
    have hderiv : ∀ t : ℝ, HasDerivAt (fun s : ℝ => c + s * u) u t := by
      intro t
      have := ((hasDerivAt_id t).mul_const u).const_add c
      simpa using this
    refine ⟨fun i _ t _ => (hderiv t).continuousAt.continuousWithinAt, fun i hi t _ => ?_⟩
    simp [Csr.nrows] at hi
    subst hi
    simpa [Csr.row] using (hderiv t).hasDerivWithinAt
  refine ⟨lp, st0, st1, st2, te1, te2, fun _ => 2, hfb, hst0, hr1, hr2, ?_, ?_⟩
  · refine ((hct hr2).2 _).2 ⟨fun _ => 0, (hX _).2 rfl, ?_⟩
    rw [(hct hr2).1 (by simp)]
    refine .input (k := 1) (y := fun _ => 1) (u := fun _ => 1) (w := fun t _ => 1 + t * 1)
      (.input (k := 0) (y := fun _ => 0) (u := fun _ => 1) (w := fun t _ => 0 + t * 1)
        (.zero fun _ _ => rfl) rfl ((hU _).2 (by norm_num)) (hsol 0 1) (fun _ _ => by simp)
        (fun _ _ => by simp)) rfl ((hU _).2 (by norm_num)) (hsol 1 1) (fun _ _ => by simp)
      (fun _ _ => by norm_num)
  · intro hc
    obtain ⟨x, hx, hr⟩ := ((hct hr1).2 _).1 hc
    rw [(hct hr1).1 (by simp)] at hr
    have hx := (hX x).1 hx
    cases hr with
    | noInput _ hi _ _ _ => cases hi
    | @input _ _ y _ w inp u hc' hi hu hw hw0 hz =>
      cases hc' with
      | zero he =>
      simp only [exZero, Option.some.injEq] at hi
      subst hi
      have hu := (hU u).1 hu
      have hb : (⟨1, [[(0, 1)]]⟩ : Csr ℝ).WF := by intro r hr; simp at hr; subst hr; simp
      have e0 : w 0 0 = 0 := by rw [hw0 0 (by simp [Csr.nrows]), he 0 (by simp [Csr.nrows]), hx]
      have e1 := flow_unique (x0 := fun _ => 0) exZero_real.wf rfl hb (by norm_num) hw
        (fun i hi => by simp [Csr.nrows] at hi; subst hi; exact e0) (i := 0) (by simp [Csr.nrows])
      have hw' : Solves (⟨1, [[]]⟩ : Csr ℝ) (fun _ i => dot ((⟨1, [[(0, 1)]]⟩ : Csr ℝ).row i) u) 1
          (fun t _ => 0 + t * u 0) := by
        have hrow : ∀ i, dot ((⟨1, [[(0, 1)]]⟩ : Csr ℝ).row i) (fun _ => u 0) =
            dot ((⟨1, [[(0, 1)]]⟩ : Csr ℝ).row i) u := by
          intro i
          rcases i with _ | i <;> simp [Csr.row]
        have := hsol 0 (u 0)
        simp only [hrow] at this
        exact this
      have e2 := flow_unique (x0 := fun _ => 0) exZero_real.wf rfl hb (by norm_num) hw'
        (fun i hi => by simp) (i := 0) (by simp [Csr.nrows])
      have e3 := hz 0 (by simp [Csr.nrows])
      rw [e1, ← e2] at e3
      simp at e3
      linarith [hu.1]

end

/-! ## C42 fails with inputs -/

/-- One variable, `x ↦ x/2 + u`, `u ∈ [-1, 1]`, invariant `x ≤ 0`. -/
def exInv : Mode ℚ :=
  { name := "i", id := 0, a := some ⟨1, [[(0, 1)]]⟩, inputs := some exInputs,
    inv := [⟨1, [(0, 1)], 0⟩] }

/-- Its discrete dynamics (those of `x' = -ln 2 x + 2 ln 2 u` with step 1). -/
def exHalf : Dyn ℚ :=
  { dims := 1, ex := fun k => mat1 ((1 / 2) ^ k), nmat := some (mat1 1) }

theorem exHalf_for : exHalf.For exInv where
  laws := ⟨fun _ => ⟨rfl, rfl⟩, fun k => by
    simp only [exHalf, mat1, Mat.mul, Mat.mk.injEq, true_and]
    funext i j
    simp [pow_succ], fun N hN => by
    simp only [exHalf, Option.some.injEq] at hN
    subst hN
    exact ⟨rfl, Nat.one_pos⟩⟩
  wf := ⟨by simp [exInv, exHalf], by simp [exInv, exHalf], by simp [exInv]⟩
  pos := Nat.one_pos
  inp := fun N hN => ⟨exInputs, rfl, by
    simp only [exHalf, Option.some.injEq] at hN
    subst hN
    rfl⟩
  noInp := by simp [exHalf]

/-- **C42 fails in a mode with inputs and an invariant.**  From the box `[0, 0]`, `z = 1` is reached
in two steps (`u = 0`, then `u = 1`) by a trajectory inside the invariant, but the set after two
rounds does not contain it: the invariant was imposed on the wrong input. -/
theorem C42_unsound_with_inputs :
    ∃ (T : Tols ℚ) (lp : Lp ℚ) (st0 st : SS ℚ) (te : Option (TE ℚ)) (x z : ℕ → ℚ),
      0 ≤ T.inter ∧ fromBox (idealSolver ℚ) [(0, 0)] exInv = .ok lp ∧
      SS.make T exInv 0 lp (0, 0) [] true = .ok st0 ∧
      Evolved (idealSolver ℚ) T exHalf exInv none st0 2 te st ∧
      lp.Mem x ∧ Flow 0 exInv exHalf 2 x z ∧ ¬ st.lp.Mem z := by
  have hC := idealSolver_complete (K := ℚ)
  have hS := hC.toHonest
  have hd := exHalf_for
  obtain ⟨lp, hlp⟩ := C01_from_box_accepts hC (box := [((0 : ℚ), 0)]) exInv (by norm_num)
  have hm := C01_from_box hlp
  have hfb := hlp
  simp only [fromBox, bind_ok, assert_ok] at hlp
  obtain ⟨_, -, hlp⟩ := hlp
  have hH := Hist.construct hlp (by simp) (boxCsr_wf [((0 : ℚ), 0)])
  obtain ⟨-, -, -, -, -, hdim, -, -, hie, -⟩ := fromConstraints_ok hlp (by simp)
  let T : Tols ℚ := ⟨1 / 10, 0, 0, 0, 0⟩
  obtain ⟨st0, hst0⟩ := SS.make_accepts (T := T) (le_refl _) (le_refl _) (m := exInv)
    (a := ⟨1, [[(0, 1)]]⟩) rfl (hH.inv hS).1 0 (0, 0) [] true
  obtain ⟨hst, hok⟩ := SS.Ok.make (ε := 0) hd rfl (hH.inv hS).1 (hH.inv hS).2.1 rfl hst0
  obtain ⟨ρ0, hρ0, hlow, -⟩ := hok.ex
  have hX : ∀ x, lp.Mem x ↔ x 0 = 0 := by
    intro x
    refine (hm x).trans ⟨fun h => ?_, fun h i hi => ?_⟩
    · have := h 0 (by simp)
      exact le_antisymm this.2 this.1
    · simp at hi; subst hi; simp [h]
  have hk0 : st0.stepIn = 0 := by rw [hst]
  have hl0 : st0.lp = lp := by rw [hst]
  have hP0 : ∀ y v, ρ0.P y v → y 0 = 0 := by
    intro y v hp
    have := (hρ0.mem (exHalf.val st0.stepIn y v)).2 ⟨y, v, hp, fun _ _ => rfl⟩
    rw [hl0, hX, hk0, Dyn.val_zero _ _ _ Nat.one_pos] at this
    exact this
  have hie0 : st0.lp.ie.isSome = true := by rw [hl0, hie]; rfl
  have hr0 : st0.invRows = [none] := by rw [hst]; rfl
  -- round 1
  obtain ⟨st1, f1, o1, hi1, hie1, hcase1, hskip1⟩ := hρ0.inv1_accepts hC (T := T) hd (lc := ⟨1, [(0, 1)], 0⟩)
    rfl hr0 (B := 0) (by
      intro x hx
      rw [hl0, hX] at hx
      simp [hx])
  have hr1 : st1.invRows = [none] := hskip1 (by
    intro x hx
    rw [hl0, hX] at hx
    simp [hx, T])
  obtain ⟨e1, -, -, ρ1, hρ1, hs1, hc1, -, hf1⟩ := invLoop_spec hS (T := T) (by norm_num [T]) hd exInv.inv
    (fun _ h => h) hρ0 hi1
  have hk1 : st1.stepIn = 0 := by rw [e1]; exact hk0
  have hv0 : ∀ y v, exHalf.val 0 y v 0 = y 0 := fun y v => Dyn.val_zero _ _ _ Nat.one_pos
  have hp1 : ∀ v, ρ1.P (fun _ => 0) v := fun v => hc1 _ v (hlow _ v ((hX _).2 rfl) (by simp [hk0]) (by simp)) (by
    intro lc hlc
    simp only [exInv, List.mem_singleton] at hlc
    subst hlc
    simp [hk0, hv0])
  have hf1' : f1 = true := by
    cases f1
    · exact absurd (hp1 fun _ _ => 0) (hf1 rfl _ _)
    · rfl
  subst hf1'
  obtain ⟨te2, st2, hs2, hie2⟩ := hρ1.step_accepts hd (a := ⟨1, [[(0, 1)]]⟩) rfl rfl (te := none)
    (by simp) (fun _ => by rw [hie1]; exact hie0)
  obtain ⟨ht2, -, e2, ρ2, hρ2, hP2⟩ := hρ1.step hd (by simp) hs2
  have hk2 : st2.stepIn = 1 := by rw [e2]; simp [hk1]
  have hr2 : st2.invRows = [none] := by rw [e2]; exact hr1
  have hN1 : exHalf.iesTo 1 = [mat1 1] := by simp [Dyn.iesTo, exHalf, Dyn.at]
  have hN2 : exHalf.iesTo 2 = [mat1 1, (mat1 (1 / 2)).mul (mat1 1)] := by
    simp [Dyn.iesTo, exHalf, Dyn.at, List.range_succ]
  have hin : exHalf.inputs = 1 := rfl
  have hv1 : ∀ y v, exHalf.val 1 y v 0 = y 0 / 2 + v 0 0 := by
    intro y v
    unfold Dyn.val
    rw [hN1, hin]
    simp [exHalf, Dyn.at, mat1, inSum]
    ring
  have hv2 : ∀ y v, exHalf.val 2 y v 0 = y 0 / 4 + v 0 0 + v 1 0 / 2 := by
    intro y v
    unfold Dyn.val
    rw [hN2, hin]
    simp [exHalf, Dyn.at, mat1, inSum, Mat.mul, Finset.sum_range_succ]
    ring
  have hadm : ∀ u, Admissible exInv u ↔ u 0 ≤ 1 ∧ -u 0 ≤ 1 := fun u =>
    (admissible_iff (inp := exInputs) rfl u).trans (exInputs_ok u)
  -- round 2
  obtain ⟨st3, f3, o3, hi3, hie3, -, -⟩ := hρ2.inv1_accepts hC (T := T) hd (lc := ⟨1, [(0, 1)], 0⟩)
    rfl hr2 (B := 1) (by
      intro x hx
      obtain ⟨y, v, hp, hx⟩ := (hρ2.mem x).1 hx
      have h0 := hx 0 Nat.one_pos
      obtain ⟨q1, q2⟩ := (hP2 y v).1 hp
      have q3 := (hadm _).1 (q2 0 (by omega) (by omega))
      have q4 := hP0 y v (hs1 y v q1)
      rw [hk2, hv1, q4] at h0
      simp [h0]
      exact q3.1)
  obtain ⟨e3, -, -, ρ3, hρ3, hs3, hc3, hb3, hf3⟩ := invLoop_spec hS (T := T) (by norm_num [T]) hd exInv.inv
    (fun _ h => h) hρ2 hi3
  have hk3 : st3.stepIn = 1 := by rw [e3]; exact hk2
  have hf3' : f3 = true := by
    cases f3
    · refine absurd (hc3 (fun _ => 0) (fun _ _ => 0) ((hP2 _ _).2 ⟨hp1 _, fun l _ _ => (hadm _).2
        (by norm_num)⟩) ?_) (hf3 rfl _ _)
      intro lc hlc
      simp only [exInv, List.mem_singleton] at hlc
      subst hlc
      simp [hk2, hv1]
    · rfl
  subst hf3'
  obtain ⟨te4, st4, hs4, -⟩ := hρ3.step_accepts hd (a := ⟨1, [[(0, 1)]]⟩) rfl rfl ht2
    (fun _ => by rw [hie3, hie2, hie1]; exact hie0)
  obtain ⟨-, -, e4, ρ4, hρ4, hP4⟩ := hρ3.step hd ht2 hs4
  have hk4 : st4.stepIn = 2 := by rw [e4]; simp [hk3]
  refine ⟨T, lp, st0, st4, te4, fun _ => 0, fun _ => 1, by norm_num [T], hfb, hst0,
    .round (.round .start hi1 hs2) hi3 hs4, (hX _).2 rfl, ?_, ?_⟩
  · refine .step (y := fun _ => 0) (.step (y := fun _ => 0) (.zero fun _ _ => rfl) ?_
      ⟨fun _ => 0, (hadm _).2 (by norm_num), fun i _ => ?_⟩) ?_
      ⟨fun _ => 1, (hadm _).2 (by norm_num), fun i _ => ?_⟩
    · simp [InvEps, exInv]
    · simp [inputPart, exHalf, mulV, mat1]
    · simp [InvEps, exInv]
    · simp [inputPart, exHalf, mulV, mat1]
  · intro hc
    obtain ⟨y, v, hp, hx⟩ := (hρ4.mem _).1 hc
    have h0 := hx 0 Nat.one_pos
    rw [hk4, hv2] at h0
    obtain ⟨p3, p4⟩ := (hP4 y v).1 hp
    have a1 := (hadm _).1 (p4 1 (by omega) (by omega))
    have a2 := hb3 rfl y v p3 ⟨1, [(0, 1)], 0⟩ (by simp [exInv])
    have a3 := hP0 y v (hs1 y v ((hP2 y v).1 (hs3 y v p3)).1)
    rw [hk2] at a2
    simp [hv1, a3, T] at a2
    rw [a3] at h0
    linarith [a1.1]

end Hylaa
