import Verif.Proofs.LggReal

/-!
# State sets with the LGG approximation model

`LggCov`: a state set, after the approximation model was applied and some steps were taken, contains the
states of all motions during its time interval.
-/

set_option linter.unusedSectionVars false

namespace Hylaa
open Spec

section
variable {K : Type} [Field K] [LinearOrder K] [IsStrictOrderedRing K]

/-- The set of a new state set is replaced. -/
theorem SS.Ok.replace {m : Mode K} {d : Dyn K} (hd : d.For m) {st : SS K} {ρ : Rep K} (h : st.Sh d ρ)
    (h0 : st.stepIn = 0) (hrows : st.invRows = m.inv.map fun _ => none) {lp : Lp K} {X : (ℕ → K) → Prop}
    (hX : lp.Repr (Rep.ofSet d.dims X)) (ho : lp.ObjInv) {ε : K} :
    SS.Ok m d lp.Mem ε True 0 { st with lp := lp } := by
  have hmem : ∀ y, lp.Mem y ↔ ∃ z, X z ∧ EqOn d.dims y z := fun y => (hX.mem y).trans (ofSet_mem y)
  refine ⟨⟨_, ⟨hX, ho, ?_, h.lgg, h.basis, rfl, ?_, ?_, h.ies, .inl rfl⟩, ?_, ?_⟩, by simp [hrows]⟩
  · intro i r hr
    simp only [hrows, List.getElem?_map] at hr
    cases hq : m.inv[i]? <;> rw [hq] at hr <;> cases hr
  · simp only [h0]; rfl
  · simp only [h0, Rep.ofSet, Dyn.iesTo]
    cases d.nmat <;> rfl
  · intro y v hy _ _
    exact (hmem y).1 hy
  · intro _ y v hp
    exact ⟨(hmem y).2 hp, fun l hl => by simp only [h0] at hl; omega, fun j hj => absurd hj (by omega)⟩

end

variable {m : Mode ℝ} {a : Csr ℝ}

open scoped Matrix.Norms.Operator in
theorem aMat_zero (h : ‖aMat a‖ = 0) : aMat a = 0 := norm_eq_zero.1 h

/-- A whole step, where the discretisation is exact. -/
theorem exact_step (hma : ModeReal m a) {τ : ℝ} (hτ : 0 < τ) {R : ℝ} (hR0 : 0 ≤ R)
    (hR : ∀ u, Admissible m u → ∀ i < a.nrows, |inputAt m u i| ≤ R) (hz : m.inputs = none ∨ aNorm a = 0)
    {T : ℝ} {w u : ℝ → ℕ → ℝ} (h : Moves m a T w u) {s : ℝ} (h0 : 0 ≤ s) (hT : s + τ ≤ T) :
    OneStep m (dynOf a m.inputs τ) (w s) (w (s + τ)) := by
  have hR' : ∃ R', 0 ≤ R' ∧ (∀ u, Admissible m u → ∀ i < a.nrows, |inputAt m u i| ≤ R') ∧ 
      (Real.exp (τ * aNorm a) - 1 - τ * aNorm a) * (R' / aNorm a) = 0 := by
    rcases hz with hz | hz
    · exact ⟨0, le_rfl, fun u _ i _ => by simp [inputAt, hz], by simp⟩
    · exact ⟨R, hR0, hR, by simp [hz]⟩
  obtain ⟨R', g0, g1, g2⟩ := hR'
  obtain ⟨v, e, hv, he, hw⟩ := whole_step hma hτ g0 g1 h h0 hT
  refine ⟨v, hv, fun i hi => ?_⟩
  have hi : i < a.nrows := hi
  rw [hw i hi]
  have := he i hi
  rw [g2] at this
  rw [abs_nonpos_iff.1 this, add_zero]
  congr 1
  rcases hz with hz | hz
  · simp [inputAt, hz, inputPart, dynOf]
  · cases hin : m.inputs with
    | none => simp [inputAt, hin, inputPart, dynOf]
    | some inp =>
      have ha : aMat a = 0 := by rw [aNorm_eq hma.sq] at hz; exact aMat_zero hz
      simp only [inputPart, dynOf, hin, Option.map_some, inputAt, mulV]
      rw [dot_eq_sum_coefAt (wf_row (hma.inp inp hin).2 i) v, Finset.mul_sum]
      refine Finset.sum_congr rfl fun c _ => ?_
      rw [inputEffects_zero ha τ hi]
      ring

/-- Modes for which the LGG model is right. -/
structure LggMode (c : LggCfg ℝ) (m : Mode ℝ) (a : Csr ℝ) : Prop where
  real : ModeReal m a
  shaped : ∀ inp, m.inputs = some inp → inp.Shaped a.nrows
  plain : m.Plain
  tol : aNorm a = 0 ∨ c.tol < aNorm a

/-- The dynamics is exact for this mode (no inputs, or a zero matrix), so nothing is added in each step. -/
def LggExact (c : LggCfg ℝ) (m : Mode ℝ) (a : Csr ℝ) : Prop := ¬ (c.tol < aNorm a ∧ m.inputs.isSome = true)

/-- The mode's time-elapse object between uses. -/
structure LggIdle (c : LggCfg ℝ) (m : Mode ℝ) (a : Csr ℝ) (te : Option (TE ℝ)) : Prop where
  one : ∀ u, te = some u → u.one = (dynOf a m.inputs c.tau).ex 1
  inv : LggExact c m a → ∀ u, te = some u → u.Inv (dynOf a m.inputs c.tau)

theorem LggIdle.empty {c : LggCfg ℝ} : LggIdle c m a none := ⟨by simp, by simp⟩

/-- A motion from `X` that stays inside the invariant (before the end). -/
structure Mot (m : Mode ℝ) (a : Csr ℝ) (X : (ℕ → ℝ) → Prop) (Tm : ℝ) (w u : ℝ → ℕ → ℝ) : Prop where
  moves : Moves m a Tm w u
  start : X (w 0)
  inv : ∀ s, 0 ≤ s → s < Tm → InvEps 0 m (w s)

/-- A new state set with points `X` (at least). -/
structure LggFresh (d : Dyn ℝ) (m : Mode ℝ) (X : (ℕ → ℝ) → Prop) (st : SS ℝ) : Prop where
  sh : ∃ ρ, st.Sh d ρ
  zero : st.stepIn = 0
  rows : st.invRows = m.inv.map fun _ => none
  ies : st.ies = m.inputs.map fun _ => []
  noLo : st.lp.NoLo
  cols : ∀ v, st.lp.Sat v → ∀ i < st.lp.dims, v i = v (st.lp.cur + i)
  sub : ∀ x, X x → st.lp.Mem x

/-- `Y` contains the states of motions from `X` up to time `τ`. -/
def Tube (m : Mode ℝ) (a : Csr ℝ) (τ : ℝ) (X Y : (ℕ → ℝ) → Prop) : Prop :=
  ∀ Tm w u, Mot m a X Tm w u → ∀ t, 0 ≤ t → t ≤ τ → t ≤ Tm → Y (w t)

/-- The state set covers the motions from `X` during its step; the invariant has been applied at steps
`0 … n - 1` (if the mode has one). -/
structure LggCov (c : LggCfg ℝ) (m : Mode ℝ) (a : Csr ℝ) (X : (ℕ → ℝ) → Prop) (ε : ℝ) (n : ℕ) (te : Option (TE ℝ))
    (st : SS ℝ) : Prop where
  obj : st.lp.ObjInv
  wide : ¬ LggExact c m a → ∃ inp bt rv Y, LggDyn m (dynOf a m.inputs c.tau) inp bt ∧
    bt = Mat.smul c.tau inp.b.toMat ∧ 0 ≤ rv ∧
    (∀ u, Admissible m u → ∀ i < a.nrows, |inputAt m u i| ≤ rv) ∧
    LggOk m (dynOf a m.inputs c.tau) inp bt (c.factor a * (rv / aNorm a)) Y te st ∧ Tube m a c.tau X Y
  exact : LggExact c m a → ∃ rv Y, 0 ≤ rv ∧
    (∀ u, Admissible m u → ∀ i < a.nrows, |inputAt m u i| ≤ rv) ∧
    (∀ u, te = some u → u.Inv (dynOf a m.inputs c.tau)) ∧
    st.Ok m (dynOf a m.inputs c.tau) Y ε False n ∧ Tube m a c.tau X Y

theorem LggCov.idle {c : LggCfg ℝ} {X : (ℕ → ℝ) → Prop} {ε : ℝ} {n : ℕ} {te : Option (TE ℝ)} {st : SS ℝ}
    (h : LggCov c m a X ε n te st) : LggIdle c m a te := by
  refine ⟨?_, fun he => (h.exact he).choose_spec.choose_spec.2.2.1⟩
  by_cases he : LggExact c m a
  · intro u hu
    obtain ⟨rv, Y, -, -, h3, -⟩ := h.exact he
    exact (h3 u hu).one
  · obtain ⟨inp, bt, rv, Y, -, -, -, -, h5, -⟩ := h.wide he
    obtain ⟨t, rfl, ht⟩ := h5.te
    rintro u ⟨⟩
    exact ht.one

theorem exact_zero {c : LggCfg ℝ} (h : LggMode c m a) (he : LggExact c m a) : m.inputs = none ∨ aNorm a = 0 := by
  cases hi : m.inputs with
  | none => exact .inl rfl
  | some inp => exact .inr (h.tol.resolve_right fun h' => he ⟨h', by simp [hi]⟩)

/-- **Applying the model.** -/
theorem LggFresh.approx {S : Solver ℝ} (hS : S.Honest) {T : Tols ℝ} {c : LggCfg ℝ} (hexp : c.exp = Real.exp)
    (hτ : 0 < c.tau) (hm : LggMode c m a) {X : (ℕ → ℝ) → Prop} {te te' : Option (TE ℝ)} {st st' : SS ℝ}
    (h : LggFresh (dynOf a m.inputs c.tau) m X st) (ht : LggIdle c m a te) (ε : ℝ)
    (hap : st.applyApprox S T c (dynOf a m.inputs c.tau) m .lgg te = .ok (te', st')) :
    LggCov c m a X ε 0 te' st' := by
  set d := dynOf a m.inputs c.tau with hd
  have hma := hm.real
  have hfor : d.For m := hma.dyn c.tau
  obtain ⟨ρ, hsh⟩ := h.sh
  have hs0 := h.zero
  simp only [SS.applyApprox, bind_ok, assert_ok] at hap
  obtain ⟨_, -, hap⟩ := hap
  obtain ⟨rx, rv, lp', te0, r1, r2, r3, r4, r5, r6, ⟨Y, r7⟩, r8, r9, r10, r11⟩ :=
    approxLgg_spec hS (d := d) hma.pos hm.shaped hma.dyns ht.one hsh hs0 h.noLo h.cols hap
  obtain ⟨b1, b2⟩ := lggBetaPart_lp r10
  have htube : Tube m a c.tau X lp'.Mem := by
    intro Tm w u hw t ht0 ht1 htT
    obtain ⟨v, e, hv, he, hfirst⟩ := first_step hma hexp hτ (hm.tol.imp id le_of_lt) r3 r4 r2 hw.moves
      (fun i hi => r1 _ i (h.sub _ hw.start) hi) ht0 ht1 htT
    refine hullArg_mem_congr (r7.hullArg r8) (fun i hi => (hfirst i hi).symm)
      (r11 _ _ _ _ (h.sub _ hw.start) hv he ?_ ?_)
    · positivity
    · rw [div_le_one hτ]; exact ht1
  have hobj : st'.lp.ObjInv := by
    unfold SS.lggBetaPart at r10
    split at r10
    · simp only [bind_ok, assert_ok, pure_ok, Prod.mk.injEq] at r10
      obtain ⟨_, -, _, -, lp1, h1, t, -, -, rfl⟩ := r10
      exact (setMinDir_obj h1 r9).1
    · cases r10; exact r9
  refine ⟨hobj, fun hx => ?_, fun hx => ?_⟩
  · have hcase : c.tol < aNorm a ∧ m.inputs.isSome = true := not_not.1 hx
    rw [if_pos hcase] at b2
    obtain ⟨bt, hbt, rfl, hst1⟩ := b2
    obtain ⟨inp, hinp⟩ := Option.isSome_iff_exists.1 hcase.2
    have hbt' : bt = Mat.smul c.tau inp.b.toMat := by
      simp [hd, dynOf, hinp] at hbt; exact hbt.symm
    have hsh' := hm.shaped inp hinp
    have hld : LggDyn m d inp bt := by
      refine ⟨hfor.laws, hinp, hsh', ⟨inputEffects a inp.b c.tau, by simp only [hd, dynOf, hinp, Option.map_some], rfl⟩, ?_, ?_, hma.pos,
        (hma.inp inp hinp).1⟩
      · rw [hbt']; exact hsh'.nr
      · rw [hbt']; rfl
    refine ⟨inp, bt, rv, lp'.Mem, hld, hbt', r3, r2, ?_, htube⟩
    rw [hst1]
    refine ⟨⟨_, rfl, r5, rfl, rfl, fun h => absurd hs0 h⟩, rfl, ?_, ?_⟩
    · simp [h.ies, hinp]
    · refine ⟨Rep.ofSet d.dims Y, by rw [b1]; exact r7, rfl, by simp only [hs0]; rfl, by simp [hs0]; rfl,
        fun l hl => by simp only [hs0] at hl; omega, .inl rfl, fun y v hy _ => ?_⟩
      exact (ofSet_mem y).1 ((r7.mem y).1 hy)
  · have hcase : ¬ (c.tol < aNorm a ∧ m.inputs.isSome = true) := hx
    rw [if_neg hcase] at b2
    obtain ⟨rfl, rfl⟩ := b2
    refine ⟨rv, lp'.Mem, r3, r2, fun u hu => ?_, ?_, htube⟩
    · cases hu; exact r6 hfor.laws (ht.inv hx)
    · exact (SS.Ok.replace (ε := ε) hfor hsh hs0 h.rows r7 r9).mono le_rfl (fun h => h.elim)

/-- **One step.** -/
theorem LggCov.step {c : LggCfg ℝ} (hm : LggMode c m a) {X : (ℕ → ℝ) → Prop} {ε : ℝ} {n : ℕ}
    {te te' : Option (TE ℝ)} {st st' : SS ℝ} (h : LggCov c m a X ε n te st)
    (hs : st.step (dynOf a m.inputs c.tau) m te none = .ok (te', st')) :
    LggCov c m a X ε n te' st' ∧ st'.stepIn = st.stepIn + 1 := by
  have hfor : (dynOf a m.inputs c.tau).For m := hm.real.dyn c.tau
  have hk : st'.stepIn = st.stepIn + 1 ∧ st'.lp.ObjInv := by
    unfold SS.step at hs
    simp only [Option.getD_none] at hs
    rw [if_neg (by omega), if_neg (by omega)] at hs
    simp only [bind_ok, pure_ok, Prod.mk.injEq] at hs
    obtain ⟨r, hr, s1, hs1, q, hq, rfl, rfl⟩ := hs
    exact ⟨rfl, h.obj⟩
  refine ⟨⟨hk.2, fun hx => ?_, fun hx => ?_⟩, hk.1⟩
  · obtain ⟨inp, bt, rv, Y, h1, h2, h3, h4, h5, h6⟩ := h.wide hx
    exact ⟨inp, bt, rv, Y, h1, h2, h3, h4, (h5.step h1 hs).1, h6⟩
  · obtain ⟨rv, Y, h1, h2, h3, h4, h5⟩ := h.exact hx
    obtain ⟨g1, -, -, g4⟩ := h4.step hfor h3 hs
    exact ⟨rv, Y, h1, h2, g1, g4, h5⟩

/-- Optimising does not change the set. -/
theorem LggCov.setLp {c : LggCfg ℝ} {X : (ℕ → ℝ) → Prop} {ε : ℝ} {n : ℕ} {te : Option (TE ℝ)} {st : SS ℝ}
    (h : LggCov c m a X ε n te st) {lp : Lp ℝ} (h1 : lp.toSys = st.lp.toSys) (h2 : lp.ObjInv) :
    LggCov c m a X ε n te { st with lp := lp } := by
  refine ⟨h2, fun hx => ?_, fun hx => ?_⟩
  · obtain ⟨inp, bt, rv, Y, g1, g2, g3, g4, g5, g6⟩ := h.wide hx
    obtain ⟨ρ, e1, e2⟩ := g5.set
    exact ⟨inp, bt, rv, Y, g1, g2, g3, g4, ⟨g5.te, g5.beta, g5.ies, ρ, by rw [h1]; exact e1, e2⟩, g6⟩
  · obtain ⟨rv, Y, g1, g2, g3, g4, g5⟩ := h.exact hx
    obtain ⟨⟨ρ, e1, e2⟩, e3⟩ := g4
    exact ⟨rv, Y, g1, g2, g3, ⟨⟨ρ, e1.withLp h1 h2, e2⟩, e3⟩, g5⟩

/-- The motion is followed through the steps of the exact case. -/
theorem Mot.flow {c : LggCfg ℝ} (hτ : 0 < c.tau) (hm : LggMode c m a) (hx : LggExact c m a) {X : (ℕ → ℝ) → Prop}
    {rv : ℝ} (h0 : 0 ≤ rv) (hR : ∀ u, Admissible m u → ∀ i < a.nrows, |inputAt m u i| ≤ rv) {Tm : ℝ}
    {w u : ℝ → ℕ → ℝ} (hw : Mot m a X Tm w u) {t0 : ℝ} (ht0 : 0 ≤ t0) (k : ℕ) (hk : t0 + k * c.tau ≤ Tm) :
    Flow 0 m (dynOf a m.inputs c.tau) k (w t0) (w (t0 + k * c.tau)) := by
  have hstep : ∀ j < k, 0 ≤ t0 + j * c.tau ∧ t0 + j * c.tau + c.tau ≤ Tm := by
    intro j hj
    refine ⟨by positivity, ?_⟩
    have : ((j : ℝ) + 1) * c.tau ≤ k * c.tau := by
      gcongr; exact_mod_cast hj
    linarith
  have : ∀ j ≤ k, Flow 0 m (dynOf a m.inputs c.tau) j (w t0) (w (t0 + j * c.tau)) := by
    intro j
    induction j with
    | zero => intro _; exact .zero fun i _ => by simp
    | succ j ih =>
      intro hj
      obtain ⟨g1, g2⟩ := hstep j (by omega)
      refine .step (ih (by omega)) (hw.inv _ g1 (by linarith)) ?_
      have := exact_step hm.real hτ h0 hR (exact_zero hm hx) hw.moves g1 g2
      push_cast
      rw [show t0 + ((j : ℝ) + 1) * c.tau = t0 + j * c.tau + c.tau by ring]
      exact this
  exact this k le_rfl

/-- **Coverage.** -/
theorem LggCov.mem {c : LggCfg ℝ} (hexp : c.exp = Real.exp) (hτ : 0 < c.tau) (hm : LggMode c m a)
    {X : (ℕ → ℝ) → Prop} {ε : ℝ} {n : ℕ} {te : Option (TE ℝ)} {st : SS ℝ} (h : LggCov c m a X ε n te st)
    {Tm : ℝ} {w u : ℝ → ℕ → ℝ} (hw : Mot m a X Tm w u) {t : ℝ}
    (ht0 : st.stepIn * c.tau ≤ t) (ht1 : t ≤ (st.stepIn + 1) * c.tau) (htT : t ≤ Tm)
    (hn : n ≤ st.stepIn) : st.lp.Mem (w t) := by
  set d := dynOf a m.inputs c.tau with hd
  have hma := hm.real
  have hfor : d.For m := hma.dyn c.tau
  set k := st.stepIn with hk
  set t0 := t - k * c.tau with ht0'
  have hl0 : 0 ≤ t0 := by linarith
  have hl1 : t0 ≤ c.tau := by rw [ht0']; linarith
  have hkt : t0 ≤ Tm := by
    have : 0 ≤ (k : ℝ) * c.tau := by positivity
    linarith
  have hend : t0 + k * c.tau = t := by rw [ht0']; ring
  by_cases hx : LggExact c m a
  · obtain ⟨rv, Y, g1, g2, -, g4, g5⟩ := h.exact hx
    have hflow := hw.flow hτ hm hx g1 g2 hl0 k (by rw [hend]; exact htT)
    rw [hend] at hflow
    exact g4.mem_of_flow hfor hm.plain (g5 Tm w u hw t0 hl0 hl1 hkt) hflow (.inl hn)
  · obtain ⟨inp, bt, rv, Y, hld, hbt', r3, r2, hok, g6⟩ := h.wide hx
    have hinp := hld.has
    have hsh' := hm.shaped inp hinp
    have hX0 := g6 Tm w u hw t0 hl0 hl1 hkt
    have hstep : ∀ j < k, 0 ≤ t0 + j * c.tau ∧ t0 + j * c.tau + c.tau ≤ Tm := by
      intro j hj
      refine ⟨by positivity, ?_⟩
      have : ((j : ℝ) + 1) * c.tau ≤ k * c.tau := by
        gcongr; exact_mod_cast hj
      linarith
    have hall : ∀ j, ∃ (v e : ℕ → ℝ), j < k → (Admissible m v ∧
        (∀ i < a.nrows, |e i| ≤ c.factor a * (rv / aNorm a)) ∧
        ∀ i < a.nrows, w (t0 + j * c.tau + c.tau) i =
          mulV a.nrows (d.ex 1).e (w (t0 + j * c.tau)) i + (c.tau * inputAt m v i + e i)) := by
      intro j
      by_cases hj : j < k
      · obtain ⟨h1, h2⟩ := hstep j hj
        obtain ⟨v, e, a1, a2, a3⟩ := whole_step hma hτ r3 r2 hw.moves h1 h2
        refine ⟨v, e, fun _ => ⟨a1, ?_, a3⟩⟩
        simp only [LggCfg.factor, hexp]
        exact a2
      · exact ⟨fun _ => 0, fun _ => 0, fun h => absurd h hj⟩
    choose V E hVE using hall
    have hun := unroll (d := d) hfor.laws (p := fun j => w (t0 + j * c.tau))
      (g := fun j i => c.tau * inputAt m (V j) i + E j i) k fun j hj i hi => by
        have := (hVE j hj).2.2 i hi
        push_cast
        rw [show t0 + ((j : ℝ) + 1) * c.tau = t0 + j * c.tau + c.tau by ring]
        exact this
    have hmem := hok.mem hld (y := w t0) (u := fun l => V (k - 1 - l)) (w := fun l => E (k - 1 - l)) hX0
      (fun l hl => (hVE (k - 1 - l) (by omega)).1 inp hinp)
      (fun l hl j hj => abs_le.1 ((hVE (k - 1 - l) (by omega)).2.1 j hj))
    obtain ⟨ρ', hρ', hn', -⟩ := hok.set
    obtain ⟨z, hz, hzx⟩ := hmem
    refine ⟨z, hz, fun i hi => ?_⟩
    have hi' : i < d.dims := by rw [← hn', ← hρ'.n]; exact hi
    rw [hzx i hi, ← hend, hun i hi']
    simp only [Nat.cast_zero, zero_mul, add_zero]
    congr 1
    refine Finset.sum_congr rfl fun l _ => ?_
    unfold mulV
    refine Finset.sum_congr rfl fun j hj => ?_
    congr 1
    simp only [inputAt, hinp]
    rw [dot_eq_sum_coefAt (wf_row hsh'.b j), Finset.mul_sum, hbt']
    congr 1
    refine Finset.sum_congr rfl fun c' _ => ?_
    simp only [Mat.smul, Csr.toMat]
    ring

end Hylaa
