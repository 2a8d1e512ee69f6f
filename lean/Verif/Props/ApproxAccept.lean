import Verif.Proofs.ApproxAccept
import Verif.Props.Approx
import Verif.Props.Invariant
import Mathlib.Analysis.Complex.ExponentialBounds

/-!
# C53, C54, C14, C18: the calls are not refused; steps after the convex hull model; examples
-/

set_option linter.unusedSectionVars false

namespace Hylaa
open Spec

section
variable {K : Type} [Field K] [LinearOrder K] [IsStrictOrderedRing K]

/-- **C14, acceptance.** With a solver that always answers, `aggregate_chull` of a non-empty list of non-empty
sets of one dimension does not fail. -/
theorem C14_accepts {S : Solver K} (hS : S.Complete) {M : K} {n : ℕ} {lps : List (Lp K)} {mode : Mode K}
    (hne : lps ≠ []) (hin : ∀ l ∈ lps, Inst S l true) (hn : ∀ l ∈ lps, l.dims = n)
    (hlo : ∀ l ∈ lps, RowType.lo ∉ l.getTypes) (hmem : ∀ l ∈ lps, ∃ x, l.Mem x) :
    ∃ rv, aggregateChull S M lps mode = .ok rv := by
  obtain ⟨rv, h, -⟩ := aggregateChull_accepts hS M (n := n) mode lps.length le_rfl hne fun l hl => by
    obtain ⟨h1, h2, -, h3⟩ := (hin l hl).inv hS.toHonest
    obtain ⟨B, X, R, hsh⟩ := h3 rfl
    exact ⟨⟨fun r hr ht => hlo l hl (List.mem_map.2 ⟨r, hr, ht⟩), h1, hn l hl, h2⟩, hsh.layout, hmem l hl⟩
  exact ⟨rv, h⟩

/-- **C18, acceptance.** With a solver that always answers, `compute_radius_inf` of a non-empty, bounded set
returns a number. -/
theorem C18_answers {S : Solver K} (hS : S.Complete) {lp : Lp K} {live : Bool} (hlp : Inst S lp live)
    (hd : 0 < lp.dims) (hne : ∃ x, lp.Mem x) (hb : Bounded lp.dims lp.Mem) :
    ∃ lp' r, computeRadiusInf S lp = .ok (lp', some r) := by
  obtain ⟨h1, h2, h3, -⟩ := hlp.inv hS.toHonest
  exact radius_accepts hS h1 h3 h2 hne hb hd

/-- Steps of a state set are not refused. -/
theorem takeSteps_accepts {m : Mode K} {d : Dyn K} (hd : d.For m) {a : Csr K} (ha : m.a = some a)
    (had : a.ncols = d.dims) {X : (ℕ → K) → Prop} {ε : K} {hi : Prop} {c : ℕ} (k : ℕ) {te : Option (TE K)}
    (ht : ∀ u, te = some u → u.Inv d) {st : SS K} (h : st.Ok m d X ε hi c)
    (hie : d.nmat ≠ none → st.lp.ie.isSome = true) :
    ∃ te' st', takeSteps d m te st (List.replicate k none) = .ok (te', st') := by
  induction k generalizing te st with
  | zero => exact ⟨_, _, rfl⟩
  | succ k ih =>
    obtain ⟨ρ, hρ, -⟩ := h.ex
    obtain ⟨te1, st1, h1, h2⟩ := hρ.step_accepts hd ha had ht hie
    obtain ⟨a1, -, -, a4⟩ := h.step hd ht h1
    obtain ⟨te', st', h3⟩ := ih a1 a4 (by rw [h2]; exact hie)
    refine ⟨te', st', ?_⟩
    rw [List.replicate_succ]
    simp only [takeSteps, bind_ok]
    exact ⟨_, h1, h3⟩

/-- **C54, later steps.** After the convex hull model and `k` steps in a mode without invariant, the set is the
set of points reached in `k` steps from the set that `apply_approx_model` left. -/
theorem C54_steps {S : Solver K} (hS : S.Honest) {T : Tols K} {m : Mode K} {a : Csr K} {d : Dyn K}
    (hd : d.For m) (ha : m.a = some a) (had : a.nrows = d.dims) (hinv : m.inv = []) {lp : Lp K}
    {X : (ℕ → K) → Prop} {rows : List ℕ} (hH : Hist S lp (Rep.ofSet d.dims X) rows)
    (hlo : RowType.lo ∉ lp.getTypes) {mid : ℕ} {steps : ℕ × ℕ} {ol : List ℕ} {con : Bool} {st st1 st' : SS K}
    {te te1 te' : Option (TE K)} (hte : ∀ t, te = some t → t.Inv d) {c : LggCfg K}
    (hm : SS.make T m mid lp steps ol con = .ok st)
    (hap : st.applyApprox S T c d m .chull te = .ok (te1, st1)) {ts : List (Option ℕ)}
    (hr : takeSteps d m te1 st1 ts = .ok (te', st')) :
    ((∀ t ∈ ts, t = none) → st'.stepIn = ts.length) ∧
    ∀ z, st'.lp.Mem z ↔ ∃ x, st1.lp.Mem x ∧ Flow 0 m d st'.stepIn x z := by
  obtain ⟨hst0, hok⟩ := SS.Ok.make (ε := 0) hd ha (hH.inv hS).1 (hH.inv hS).2.1 had hm
  obtain ⟨⟨ρ, hsh, -⟩, -⟩ := hok
  have hs0 : st.stepIn = 0 := by rw [hst0]
  simp only [SS.applyApprox, bind_ok, assert_ok] at hap
  obtain ⟨_, -, hap⟩ := hap
  have hlo' : st.lp.NoLo := by
    rw [hst0]
    intro r hr ht
    exact hlo (List.mem_map.2 ⟨r, hr, ht⟩)
  obtain ⟨b1, b2, ⟨Y, b3⟩, -, b5, -⟩ := approxChull_spec hd hte hsh hs0 hlo' hap
  have hok1 := SS.Ok.replace (ε := 0) hd hsh hs0 (by rw [hst0]) b3 b5
  rw [← b2] at hok1
  obtain ⟨h1, h2⟩ := takeSteps_ok hd ts b1 hok1 hr
  refine ⟨fun h => ?_, fun z => ⟨fun hz => ?_, ?_⟩⟩
  · rw [h2 h, b2]; simp [hs0]
  · obtain ⟨x, hx, hf, -⟩ := (h1.mono (hi' := True) (c' := st'.stepIn) (Nat.zero_le _)
      fun _ => ⟨trivial, .inr hinv⟩).flow_of_mem hd (.inr hinv) trivial (le_refl _) hz
    exact ⟨x, hx, hf⟩
  · rintro ⟨x, hx, hf⟩
    exact h1.mem_of_flow hd (.inr hinv) hx hf (.inl (Nat.zero_le _))

/-- **C54, acceptance.** With a solver that always answers, the convex hull model is not refused for a
non-empty set, in a mode with a non-empty set of inputs. -/
theorem C54_accepts {S : Solver K} (hS : S.Complete) {T : Tols K} (hT1 : 0 ≤ T.atol) (hT2 : 0 ≤ T.rtol)
    {m : Mode K} {a : Csr K} {d : Dyn K} (hd : d.For m) (ha : m.a = some a) (had : a.nrows = d.dims)
    (hsq : a.ncols = a.nrows) (hne : ∃ u, Admissible m u) {csr : Csr K} {rhs : List K}
    {types : Option (List RowType)} {names : Option (List String)} {dims? : Option ℕ} {lp : Lp K}
    (hc : fromConstraints S csr rhs m types names dims? = .ok lp)
    (hnames : ∀ ns, names = some ns → ns.length = csr.ncols) (hwf : csr.WF)
    (hlo : RowType.lo ∉ types.getD []) (hdims : dims?.getD csr.ncols = a.nrows) (hx : ∃ x, lp.Mem x)
    {mid : ℕ} {steps : ℕ × ℕ} {ol : List ℕ} {con : Bool} (c : LggCfg K) (k : ℕ) :
    ∃ st te1 st1 te' st', SS.make T m mid lp steps ol con = .ok st ∧
      st.applyApprox S T c d m .chull none = .ok (te1, st1) ∧
      takeSteps d m te1 st1 (List.replicate k none) = .ok (te', st') := by
  have hlo' : lp.NoLo := fromConstraints_noLo' hc hnames hlo
  have hH := Hist.construct hc hnames hwf
  rw [hdims] at hH
  obtain ⟨-, -, -, -, -, -, -, -, hie, -⟩ := fromConstraints_ok hc hnames
  obtain ⟨st, hm⟩ := SS.make_accepts hT1 hT2 ha (hH.inv hS.toHonest).1 mid steps ol con
  rw [had] at hH
  obtain ⟨hst0, hok⟩ := SS.Ok.make (ε := 0) hd ha (hH.inv hS.toHonest).1 (hH.inv hS.toHonest).2.1 had hm
  obtain ⟨⟨ρ, hsh, -⟩, -⟩ := hok
  have hs0 : st.stepIn = 0 := by rw [hst0]
  have hslp : st.lp = lp := by rw [hst0]
  have hisome : d.nmat ≠ none → m.inputs.isSome = true := by
    intro hN
    obtain ⟨N, hN⟩ := Option.ne_none_iff_exists'.1 hN
    obtain ⟨inp, hi, -⟩ := hd.inp N hN
    rw [hi]; rfl
  obtain ⟨⟨te1, st1⟩, hap⟩ := approxChull_accepts (te := none) hS T hd ha (hsq.trans had) hne (by simp) hsh
    (fun hN => by rw [hslp, hie, if_pos (hisome hN)]; rfl) hs0 (by rw [hslp]; exact hlo') (by rw [hslp]; exact hx)
  obtain ⟨b1, b2, ⟨Y, b3⟩, -, b5, -⟩ := approxChull_spec hd (by simp) hsh hs0 (by rw [hslp]; exact hlo') hap
  have hok1 := SS.Ok.replace (ε := 0) hd hsh hs0 (by rw [hst0]) b3 b5
  rw [← b2] at hok1
  have hie1 : st1.lp.ie.isSome = m.inputs.isSome := by
    simp only [SS.approxChull, bind_ok, pure_ok, Prod.mk.injEq] at hap
    obtain ⟨one, h1, g, hg, s, hsb, s2, hs2, lp', hlp, rfl, rfl⟩ := hap
    exact aggregateChull_ie hlp
  obtain ⟨te', st', hst⟩ := takeSteps_accepts hd ha (hsq.trans had) k b1 hok1
    (fun hN => by rw [hie1]; exact hisome hN)
  refine ⟨st, te1, st1, te', st', hm, ?_, hst⟩
  simp only [SS.applyApprox, bind_ok, assert_ok]
  exact ⟨(), hs0, hap⟩

end

variable {m : Mode ℝ} {a : Csr ℝ}

theorem LggOk.steps_accepts {d : Dyn ℝ} {inp : Inputs ℝ} {bt : Mat ℝ} (hd : LggDyn m d inp bt)
    (ha : m.a = some a) (had : a.ncols = d.dims) {β : ℝ} {X : (ℕ → ℝ) → Prop} (k : ℕ) {te : Option (TE ℝ)}
    {st : SS ℝ} (h : LggOk m d inp bt β X te st) (hie : st.lp.ie.isSome = true) :
    ∃ te' st', takeSteps d m te st (List.replicate k none) = .ok (te', st') := by
  induction k generalizing te st with
  | zero => exact ⟨_, _, rfl⟩
  | succ k ih =>
    obtain ⟨te1, st1, h1, h2⟩ := h.step_accepts hd ha had hie
    obtain ⟨te', st', h3⟩ := ih (h.step hd h1).1 h2
    refine ⟨te', st', ?_⟩
    rw [List.replicate_succ]
    simp only [takeSteps, bind_ok]
    exact ⟨_, h1, h3⟩

/-- **C53, acceptance.** With a solver that always answers, `StateSet(...)`, the LGG model and any number of
steps are not refused, for a non-empty bounded set and a non-empty bounded set of inputs, provided that in a
mode with inputs and dynamics the bloating `beta = (exp(tau |A|) - 1 - tau |A|) max|B u| / |A|` is between the
two limits the code asserts. -/
theorem C53_lgg_accepts {S : Solver ℝ} (hS : S.Complete) {T : Tols ℝ} (hT1 : 0 ≤ T.atol) (hT2 : 0 ≤ T.rtol)
    {c : LggCfg ℝ} (hexp : c.exp = Real.exp) (hma : ModeReal m a)
    (hin : ∀ inp, m.inputs = some inp → inp.Shaped a.nrows)
    (hrow : ∀ inp, m.inputs = some inp → inp.uCsc.nrows = inp.uRhs.length)
    (hne : ∃ u, Admissible m u) (hbd : ∃ b, ∀ u, Admissible m u → ∀ i < a.nrows, |inputAt m u i| ≤ b)
    (hβ : c.tol < aNorm a → m.inputs.isSome = true → ∀ r, IsGreatest
        {r | ∃ u i, Admissible m u ∧ i < a.nrows ∧ r = |inputAt m u i|} r →
      let beta := (Real.exp (c.tau * aNorm a) - 1 - c.tau * aNorm a) * (r / aNorm a)
      c.tol < beta ∧ beta < c.maxBeta)
    {csr : Csr ℝ} {rhs : List ℝ} {types : Option (List RowType)} {names : Option (List String)}
    {dims? : Option ℕ} {lp : Lp ℝ} (hc : fromConstraints S csr rhs m types names dims? = .ok lp)
    (hnames : ∀ ns, names = some ns → ns.length = csr.ncols) (hwf : csr.WF)
    (hlo : RowType.lo ∉ types.getD []) (hdims : dims?.getD csr.ncols = a.nrows) (hx : ∃ x, lp.Mem x)
    (hb : Bounded a.nrows lp.Mem) (mid : ℕ) (steps : ℕ × ℕ) (ol : List ℕ) (con : Bool) (k : ℕ) :
    ∃ st te1 st1 te' st', SS.make T m mid lp steps ol con = .ok st ∧
      st.applyApprox S T c (dynOf a m.inputs c.tau) m .lgg none = .ok (te1, st1) ∧
      takeSteps (dynOf a m.inputs c.tau) m te1 st1 (List.replicate k none) = .ok (te', st') := by
  set d := dynOf a m.inputs c.tau with hd
  have hfor : d.For m := hma.dyn c.tau
  have hlo' : lp.NoLo := fromConstraints_noLo' hc hnames hlo
  have hH := Hist.construct hc hnames hwf
  rw [hdims] at hH
  obtain ⟨st, hm⟩ := SS.make_accepts hT1 hT2 hma.dyns (hH.inv hS.toHonest).1 mid steps ol con
  obtain ⟨hst0, hok⟩ := SS.Ok.make (ε := 0) hfor hma.dyns (hH.inv hS.toHonest).1 (hH.inv hS.toHonest).2.1 rfl hm
  obtain ⟨⟨ρ, hsh, -⟩, -⟩ := hok
  have hs0 : st.stepIn = 0 := by rw [hst0]
  have hslp : st.lp = lp := by rw [hst0]
  have hf : 0 ≤ c.factor a := by
    unfold LggCfg.factor
    rw [hexp]
    linarith [Real.add_one_le_exp (c.tau * aNorm a)]
  obtain ⟨⟨te1, st1⟩, hap⟩ := approxLgg_accepts (te := none) hS T hfor hin hrow hma.dyns hf
    (fun hi => by
      obtain ⟨inp, hi⟩ := Option.isSome_iff_exists.1 hi
      simp [hd, dynOf, hi]) hne hbd
    (fun r h1 h2 ⟨u, i, u1, u2, u3⟩ h4 => by
      have := hβ h1 h2 r ⟨⟨u, i, u1, u2, u3.symm⟩, by rintro _ ⟨u, i, u1, u2, rfl⟩; exact h4 u u1 i u2⟩
      simpa only [LggCfg.factor, hexp] using this) (by simp) hsh hs0
    (by rw [hslp]; exact hlo') (by rw [hslp]; exact hx) (by rw [hslp]; exact hb)
  have hie1 := approxLgg_ie hap
  obtain ⟨rx, rv, lp', te0, r1, r2, r3, r4, r5, r6, ⟨X, r7⟩, r8, r9, r10, r11⟩ :=
    approxLgg_spec hS.toHonest (d := d) hma.pos hin hma.dyns (by simp) hsh hs0 (by rw [hslp]; exact hlo')
      (by rw [hslp]; exact fresh_cols hc hnames hwf) hap
  obtain ⟨b1, b2⟩ := lggBetaPart_lp r10
  have hgoal : ∃ te' st', takeSteps d m te1 st1 (List.replicate k none) = .ok (te', st') := by
    by_cases hcase : c.tol < aNorm a ∧ m.inputs.isSome = true
    · rw [if_pos hcase] at b2
      obtain ⟨bt, hbt, rfl, hst1⟩ := b2
      obtain ⟨inp, hinp⟩ := Option.isSome_iff_exists.1 hcase.2
      have hbt' : bt = Mat.smul c.tau inp.b.toMat := by
        simp [hd, dynOf, hinp] at hbt; exact hbt.symm
      have hsh' := hin inp hinp
      have hld : LggDyn m d inp bt := by
        refine ⟨hfor.laws, hinp, hsh', ⟨inputEffects a inp.b c.tau, by simp only [hd, dynOf, hinp, Option.map_some], rfl⟩,
          ?_, ?_, hma.pos, (hma.inp inp hinp).1⟩
        · rw [hbt']; exact hsh'.nr
        · rw [hbt']; rfl
      have hstart : LggOk m d inp bt (c.factor a * (rv / aNorm a)) lp'.Mem
          (some { te0 with lgg := true, oneIe := some bt }) st1 := by
        rw [hst1]
        refine ⟨⟨_, rfl, r5, rfl, rfl, fun h => absurd hs0 h⟩, rfl, ?_, ?_⟩
        · simp [hst0, hinp]
        · refine ⟨Rep.ofSet d.dims X, by rw [b1]; exact r7, rfl, by simp only [hs0]; rfl, by simp [hs0]; rfl,
            fun l hl => by simp only [hs0] at hl; omega, .inl rfl, fun y v hy _ => ?_⟩
          exact (ofSet_mem y).1 ((r7.mem y).1 hy)
      exact hstart.steps_accepts hld hma.dyns hma.sq k (by rw [hie1]; exact hcase.2)
    · rw [if_neg hcase] at b2
      obtain ⟨rfl, rfl⟩ := b2
      refine takeSteps_accepts hfor hma.dyns hma.sq k (fun u hu => by cases hu; exact r6 hfor.laws (by simp))
        (SS.Ok.replace (ε := 0) hfor hsh hs0 (by rw [hst0]) r7 r9) fun hN => ?_
      rw [hie1]
      obtain ⟨N, hN⟩ := Option.ne_none_iff_exists'.1 hN
      obtain ⟨inp, hi, -⟩ := hfor.inp N hN
      rw [hi]; rfl
  obtain ⟨te', st', hst⟩ := hgoal
  refine ⟨st, te1, st1, te', st', hm, ?_, hst⟩
  simp only [SS.applyApprox, bind_ok, assert_ok]
  exact ⟨(), hs0, hap⟩

/-! ## Example: `x' = x + u`, `u ∈ [-1, 1]`, step size 1, from `[0, 1]` -/

noncomputable def exLgg : Mode ℝ :=
  { name := "l", id := 0, a := some ⟨1, [[(0, 1)]]⟩,
    inputs := some ⟨⟨1, [[(0, 1)]]⟩, ⟨2, [[(0, 1), (1, -1)]]⟩, [1, 1]⟩ }

theorem exLgg_real : ModeReal exLgg ⟨1, [[(0, 1)]]⟩ where
  dyns := rfl
  wf := by intro r hr; simp at hr; subst hr; simp
  sq := rfl
  pos := by simp [Csr.nrows]
  inp := by
    intro p hp
    simp only [exLgg, Option.some.injEq] at hp
    subst hp
    refine ⟨by norm_num, ?_⟩
    intro r hr; simp at hr; subst hr; simp
  inv := ⟨by simp [exLgg], by simp [exLgg], by simp [exLgg]⟩

theorem exLgg_adm (u : ℕ → ℝ) : Admissible exLgg u ↔ -1 ≤ u 0 ∧ u 0 ≤ 1 := by
  unfold Admissible InputSet
  simp only [exLgg, Option.some.injEq, forall_eq']
  constructor
  · intro h
    have h0 := h 0 (by simp)
    have h1 := h 1 (by simp)
    simp [coefAt] at h0 h1
    exact ⟨by linarith, h0⟩
  · rintro ⟨h1, h2⟩ i hi
    have : i = 0 ∨ i = 1 := by simp at hi; omega
    rcases this with rfl | rfl <;> simp [coefAt] <;> linarith

theorem exLgg_norm : aNorm (⟨1, [[(0, 1)]]⟩ : Csr ℝ) = 1 := by
  simp [aNorm, Csr.nrows, Csr.row, coefAt]

noncomputable def exLggCfg : LggCfg ℝ := ⟨Real.exp, 1, 1 / 10 ^ 7, 10 ^ 5⟩

theorem exLgg_inputAt (u : ℕ → ℝ) : inputAt exLgg u 0 = u 0 := by
  simp [inputAt, exLgg, Csr.row]

/-- **C53** on the example: the model and one step are accepted, and the set that is then at step 1 contains the
states at all times between 1 and 2 of the motion `x(t) = t`, which takes the input `u(t) = 1 - t`. -/
example : ∃ (lp : Lp ℝ) (st st1 st' : SS ℝ) (te1 te' : Option (TE ℝ)),
    fromBox (idealSolver ℝ) [(0, 1)] exLgg = .ok lp ∧ SS.make (exT ℝ) exLgg 0 lp (0, 0) [] true = .ok st ∧
    st.applyApprox (idealSolver ℝ) (exT ℝ) exLggCfg (dynOf ⟨1, [[(0, 1)]]⟩ exLgg.inputs 1) exLgg .lgg none =
      .ok (te1, st1) ∧
    takeSteps (dynOf ⟨1, [[(0, 1)]]⟩ exLgg.inputs 1) exLgg te1 st1 [none] = .ok (te', st') ∧
    ∀ t, 1 ≤ t → t ≤ 2 → st'.lp.Mem fun _ => t := by
  have hC := idealSolver_complete (K := ℝ)
  obtain ⟨lp, hlp⟩ := C01_from_box_accepts hC (box := [((0 : ℝ), 1)]) exLgg (by norm_num)
  have hmem : ∀ x, lp.Mem x ↔ 0 ≤ x 0 ∧ x 0 ≤ 1 := by
    intro x
    rw [C01_from_box hlp]
    simp [Box]
  have hfb := hlp
  simp only [fromBox, bind_ok, assert_ok] at hlp
  obtain ⟨_, -, hlp⟩ := hlp
  have hsh : ∀ inp, exLgg.inputs = some inp → inp.Shaped 1 ∧ inp.uCsc.nrows = inp.uRhs.length := by
    intro inp hi
    have hb := exLgg_real.inp inp hi
    simp only [exLgg, Option.some.injEq] at hi
    subst hi
    refine ⟨⟨hb.2, rfl, rfl, ?_⟩, rfl⟩
    intro col hcol p hp
    simp at hcol
    subst hcol
    simp at hp
    rcases hp with rfl | rfl <;> simp
  have he := Real.exp_one_gt_d9
  have he2 := Real.exp_one_lt_d9
  obtain ⟨st, te1, st1, te', st', h1, h2, h3⟩ := C53_lgg_accepts hC (T := exT ℝ) (le_refl _) (le_refl _)
    (c := exLggCfg) rfl exLgg_real (fun inp hi => (hsh inp hi).1) (fun inp hi => (hsh inp hi).2)
    ⟨fun _ => 0, (exLgg_adm _).2 (by norm_num)⟩
    ⟨1, fun u hu i hi => by
      obtain rfl : i = 0 := by simp [Csr.nrows] at hi; exact hi
      rw [exLgg_inputAt, abs_le]; exact (exLgg_adm u).1 hu⟩
    (by
      intro _ _ r hr
      have hr1 : r = 1 := by
        refine le_antisymm ?_ (hr.2 ⟨fun _ => 1, 0, (exLgg_adm _).2 (by norm_num), by simp [Csr.nrows], by
          rw [exLgg_inputAt]; simp⟩)
        obtain ⟨u, i, hu, hi, rfl⟩ := hr.1
        obtain rfl : i = 0 := by simp [Csr.nrows] at hi; exact hi
        rw [exLgg_inputAt, abs_le]; exact (exLgg_adm u).1 hu
      rw [hr1, exLgg_norm]
      simp only [exLggCfg]
      constructor <;> norm_num <;> linarith)
    hlp (by simp) (boxCsr_wf _) (by simp) rfl ⟨fun _ => 0, (hmem _).2 (by norm_num)⟩
    ⟨1, fun x hx i hi => by
      obtain rfl : i = 0 := by simp [Csr.nrows] at hi; exact hi
      have := (hmem x).1 hx
      rw [abs_le]; constructor <;> linarith⟩ 0 (0, 0) [] true 1
  refine ⟨lp, st, st1, st', te1, te', hfb, h1, h2, h3, fun t ht1 ht2 => ?_⟩
  have hmv : Moves exLgg ⟨1, [[(0, 1)]]⟩ 2 (fun t _ => t) (fun t _ => 1 - t) := by
    refine ⟨fun i _ => continuousOn_id, ⟨∅, Set.countable_empty, fun t _ i hi => ?_⟩, fun t ht => ?_, fun inp hi c hc => ?_⟩
    · obtain rfl : i = 0 := by simp [Csr.nrows] at hi; exact hi
      rw [exLgg_inputAt]
      have := hasDerivAt_id' t
      have e : dot ((⟨1, [[(0, 1)]]⟩ : Csr ℝ).row 0) (fun _ => t) + (1 - t) = 1 := by simp [Csr.row]
      rw [e]; exact this
    · rw [exLgg_adm]; constructor <;> linarith [ht.1, ht.2]
    · exact (continuous_const.sub continuous_id).intervalIntegrable _ _
  exact C53_lgg_covers_partial hC.toHonest (c := exLggCfg) rfl (by norm_num [exLggCfg]) exLgg_real
    (fun inp hi => (hsh inp hi).1) rfl (.inr (by rw [exLgg_norm]; norm_num [exLggCfg])) hlp (by simp) (boxCsr_wf _)
    (by simp) rfl h1 .empty h2 (k := 1) h3 hmv ((hmem _).2 (by norm_num)) (by simpa [exLggCfg] using ht1)
    (by norm_num [exLggCfg]; exact ht2) ht2

/-- **C54** on the same mode without the claim on motions: the set entered with, `[0, 1]`, becomes the hull of
`[0, 1]` and its image after one step. -/
example : ∃ (lp : Lp ℝ) (st st1 : SS ℝ) (te1 : Option (TE ℝ)),
    fromBox (idealSolver ℝ) [(0, 1)] exLgg = .ok lp ∧ SS.make (exT ℝ) exLgg 0 lp (0, 0) [] true = .ok st ∧
    st.applyApprox (idealSolver ℝ) (exT ℝ) exLggCfg (dynOf ⟨1, [[(0, 1)]]⟩ exLgg.inputs 1) exLgg .chull none =
      .ok (te1, st1) ∧ convexHull ℝ (Pts 1 lp.Mem ∪ Pts 1 (fun z => ∃ x, lp.Mem x ∧
        OneStep exLgg (dynOf ⟨1, [[(0, 1)]]⟩ exLgg.inputs 1) x z)) ⊆ Pts 1 st1.lp.Mem := by
  have hC := idealSolver_complete (K := ℝ)
  have hfor := exLgg_real.dyn 1
  obtain ⟨lp, hlp⟩ := C01_from_box_accepts hC (box := [((0 : ℝ), 1)]) exLgg (by norm_num)
  have hmem : ∀ x, lp.Mem x ↔ 0 ≤ x 0 ∧ x 0 ≤ 1 := by
    intro x
    rw [C01_from_box hlp]
    simp [Box]
  have hfb := hlp
  simp only [fromBox, bind_ok, assert_ok] at hlp
  obtain ⟨_, -, hlp⟩ := hlp
  obtain ⟨st, te1, st1, te', st', h1, h2, -⟩ := C54_accepts hC (T := exT ℝ) (le_refl _) (le_refl _) hfor
    exLgg_real.dyns rfl rfl ⟨fun _ => 0, (exLgg_adm _).2 (by norm_num)⟩ hlp (by simp) (boxCsr_wf _) (by simp) rfl
    ⟨fun _ => 0, (hmem _).2 (by norm_num)⟩ (mid := 0) (steps := (0, 0)) (ol := []) (con := true) exLggCfg 0
  refine ⟨lp, st, st1, te1, hfb, h1, h2, ?_⟩
  refine (C54_chull hC.toHonest hfor exLgg_real.dyns rfl (Hist.construct hlp (by simp) (boxCsr_wf _)) ?_ (by simp)
    h1 h2).1
  intro hlo
  obtain ⟨r, hr, ht⟩ := List.mem_map.1 hlo
  exact fromConstraints_noLo' hlp (by simp) (by simp) r hr ht

end Hylaa
