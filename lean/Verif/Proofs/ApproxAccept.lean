import Verif.Proofs.Accept3
import Verif.Proofs.Approx
import Verif.Proofs.ApproxStep
import Verif.Proofs.Total

/-! The approximation models are never refused on non-empty, bounded sets. -/

set_option linter.unusedSectionVars false

namespace Hylaa
open Spec
variable {K : Type} [Field K] [LinearOrder K] [IsStrictOrderedRing K]

/-- A direction in the current-time variables of a bounded set has a minimum. -/
theorem minimize_bounded {S : Solver K} (hS : S.Complete) {lp : Lp K} (hw : lp.WF) (ho : lp.ObjInv)
    (hcur : lp.cur + lp.dims ≤ lp.numCols) (hne : ∃ x, lp.Mem x) (hb : Bounded lp.dims lp.Mem) {d : List K}
    (hd : d.length ≤ lp.dims) {f : Bool} :
    ∃ lp' l, minimize S lp (some d) none f = .ok (lp', some l) := by
  have hd1 : setDirOpt lp (some d) = .ok (lp.clearObj.setObjDenseLoop lp.cur d) := by
    simp [setDirOpt, Lp.setMinDir, hd]
  have e := setMinDir_objVal (lp := lp) (d := d) (lp1 := lp.clearObj.setObjDenseLoop lp.cur d)
    (by simpa [setDirOpt] using hd1) ho hcur
  have hts := setDirOpt_toSys hd1
  refine minimize_complete hS hd1 (by simp) ?_
  obtain ⟨b, hb⟩ := hb
  refine Lp.attain (B := -∑ i ∈ Finset.range d.length, |d.getD i 0| * b) (by rw [hts]; exact hw) ?_ fun v hv => ?_
  · obtain ⟨x, v, hv, -⟩ := hne
    exact ⟨v, by rw [hts]; exact hv⟩
  · rw [hts] at hv
    rw [e, ← Finset.sum_neg_distrib]
    refine Finset.sum_le_sum fun i hi => ?_
    have hi := Finset.mem_range.1 hi
    have := hb (fun i => v (lp.cur + i)) ⟨v, hv, fun _ _ => rfl⟩ i (by omega)
    have h1 := neg_abs_le (d.getD i 0 * v (lp.cur + i))
    rw [abs_mul] at h1
    have h2 := mul_le_mul_of_nonneg_left this (abs_nonneg (d.getD i 0))
    linarith

theorem radiusLoop_accepts {S : Solver K} (hS : S.Complete) {s : Sys K} (hw : s.WF)
    (hcur : s.cur + s.dims ≤ s.numCols) (hne : ∃ x, s.Mem x) (hb : Bounded s.dims s.Mem) (ds : List (ℕ × K)) :
    ∀ {lp : Lp K} {acc : Option K}, lp.toSys = s → lp.ObjInv →
    ∃ q, radiusLoop S lp ds acc = .ok q ∧ (acc ≠ none ∨ ds ≠ [] → q.2 ≠ none) := by
  induction ds with
  | nil => intro lp acc hs ho; exact ⟨(lp, acc), rfl, by simp⟩
  | cons d ds ih =>
    obtain ⟨n, sgn⟩ := d
    intro lp acc hs ho
    obtain ⟨lp1, l, h1⟩ := minimize_bounded hS (f := true) (lp := lp) (by rw [hs]; exact hw) ho
      (by rw [hs]; exact hcur) (by rw [hs]; exact hne) (by rw [hs]; exact hb)
      (d := (List.range lp.dims).map fun d => if n = d then sgn else 0) (by simp)
    obtain ⟨hs1, ho1, -⟩ := minimize_spec hS.toHonest h1 ho
    obtain ⟨q, hq, hq2⟩ := ih (acc := some (match acc with
      | none => |(((some l).getD []).getD n 0 : K)|
      | some m => max m |(((some l).getD []).getD n 0 : K)|)) (hs1.trans hs) ho1
    refine ⟨q, ?_, fun _ => hq2 (.inl (by simp))⟩
    simp only [radiusLoop, bind_ok]
    exact ⟨_, h1, hq⟩

/-- `compute_radius_inf` answers for every non-empty, bounded set. -/
theorem radius_accepts {S : Solver K} (hS : S.Complete) {lp : Lp K} (hw : lp.WF) (ho : lp.ObjInv)
    (hcur : lp.cur + lp.dims ≤ lp.numCols) (hne : ∃ x, lp.Mem x) (hb : Bounded lp.dims lp.Mem) (hpos : 0 < lp.dims) :
    ∃ lp' r, computeRadiusInf S lp = .ok (lp', some r) := by
  obtain ⟨⟨lp', r⟩, h, h1⟩ := radiusLoop_accepts hS hw hcur hne hb (radiusDirs lp.dims) (acc := none) rfl ho
  have : r ≠ none := h1 (.inr (by
    intro hc
    have : (0, (1 : K)) ∈ radiusDirs (K := K) lp.dims := by
      simp only [radiusDirs, List.mem_flatMap, List.mem_range, List.mem_cons, List.not_mem_nil, or_false]
      exact ⟨0, hpos, .inl rfl⟩
    rw [hc] at this; simp at this))
  obtain ⟨r, rfl⟩ := Option.ne_none_iff_exists'.1 this
  exact ⟨lp', r, h⟩

theorem Csc.toCsr_wf (c : Csc K) : c.toCsr.WF := by
  intro r hr p hp
  obtain ⟨i, -, rfl⟩ := List.mem_map.1 hr
  obtain ⟨j, hj, rfl⟩ := List.mem_map.1 hp
  exact List.mem_range.1 hj

theorem lggSum_accepts {S : Solver K} (hS : S.Complete) (T : Tols K) (τ : K) {m : Mode K} {n : ℕ} (hn : 0 < n)
    (hin : ∀ inp, m.inputs = some inp → inp.Shaped n)
    (hrow : ∀ inp, m.inputs = some inp → inp.uCsc.nrows = inp.uRhs.length) (hne : ∃ u, Admissible m u)
    (hbd : ∃ b, ∀ u, Admissible m u → ∀ i < n, |inputAt m u i| ≤ b) {one : Lp K} {ρ : Rep K} (h1 : one.Repr ρ)
    (hρ : ρ.n = n) (hlo : one.NoLo) (hx : ∃ x, one.Mem x) :
    ∃ q, lggSum S T τ m one = .ok q ∧ q.1.toSys.Layout ∧ (∃ x, q.1.Mem x) ∧
      (m.inputs.isSome = true → ∃ u i, Admissible m u ∧ i < n ∧ |inputAt m u i| = q.2) := by
  have hone : one.toSys.Layout := by obtain ⟨X, R, h, -⟩ := h1.shape; exact h.layout
  have hok : ∃ q, lggSum S T τ m one = .ok q ∧
      (m.inputs.isSome = true → ∃ u i, Admissible m u ∧ i < n ∧ |inputAt m u i| = q.2) := by
    unfold lggSum
    cases hi : m.inputs with
    | none => exact ⟨_, rfl, by simp⟩
    | some inp =>
      have hsh := hin inp hi
      obtain ⟨u, hu⟩ := hne
      obtain ⟨v, hv⟩ := C17_accepts hS (B := inp.b) (C := inp.uCsc.toCsr) (d := inp.uRhs) (mode := m)
        (Csc.toCsr_wf _) hsh.cols (by simp [Csr.nrows, Csc.toCsr]; exact hrow inp hi) 
        ⟨u, (toCsr_le hsh.cols (hrow inp hi) u).2 (hu inp hi)⟩
      obtain ⟨⟨X, hX⟩, vlo, vo, vcol, hrows⟩ := fromInput_fresh hsh hv
      obtain ⟨hvd, hvm⟩ := C17_from_input_constraints hsh.b hv
      have hvmem : ∀ x, v.Mem x ↔ ∃ u, Admissible m u ∧ ∀ i < n, x i = inputAt m u i := by
        intro x
        rw [hvm]
        unfold ImageOf
        refine exists_congr fun u => and_congr ?_ ?_
        · rw [toCsr_le hsh.cols (hrow inp hi)]
          simp [Admissible, hi]
        · rw [hsh.nr]; simp only [inputAt, hi]
      have hvn : v.dims = n := hvd.trans hsh.nr
      have vne : ∃ x, v.Mem x := ⟨_, (hvmem _).2 ⟨u, hu, fun i _ => rfl⟩⟩
      have vbd : Bounded v.dims v.Mem := by
        obtain ⟨b, hb⟩ := hbd
        refine ⟨b, fun x hx i hi => ?_⟩
        obtain ⟨u, hu, hxu⟩ := (hvmem x).1 hx
        rw [hvn] at hi
        rw [hxu i hi]; exact hb u hu i hi
      obtain ⟨v1, r, hr⟩ := radius_accepts hS hX.wf vo hX.curLe vne vbd (by rw [hvn]; exact hn)
      obtain ⟨k1, k2⟩ := radiusLoop_keeps hr
      have hX1 : v1.Repr (Rep.ofSet n X) := by rw [k1]; exact hX
      obtain ⟨G, hG, g1, g2, -⟩ := getBasisMatrix_repr hX1
      have hv1n : v1.dims = n := by rw [k1]; exact hvn
      obtain ⟨s, hs⟩ := setBasisMatrix_accepts v1.toSys (m := G.smul τ) (g1.trans hv1n.symm) (g2.trans hv1n.symm)
      have hsc : scaleWithBm v1.toSys τ = .ok s := by
        simp only [scaleWithBm, bind_ok]; exact ⟨G, hG, hs⟩
      have hsr := setBasisMatrix_repr hs hX1
      have slo : s.NoLo := by
        rw [Sys.noLo_iff] at *
        rw [setBasisMatrix_types hs, k1]; exact vlo
      have hsne : ∃ x, s.Mem x := by
        obtain ⟨x, hx⟩ := vne
        rw [← k1] at hx
        obtain ⟨y, u, hp, -⟩ := (hX1.mem x).1 hx
        exact ⟨_, (hsr.mem _).2 ⟨y, u, hp, fun _ _ => rfl⟩⟩
      obtain ⟨sum, hsum⟩ := minkowskiSum_accepts hS (M := T.dblMax) (mode := m)
        (lps := [one, { v1 with toSys := s }]) (by simp) (n := n) (by
          intro l hl
          simp only [List.mem_cons, List.not_mem_nil, or_false] at hl
          rcases hl with rfl | rfl
          · exact ⟨hlo, h1.wf, h1.n.trans hρ, h1.curLe⟩
          · exact ⟨slo, hsr.wf, hsr.n, hsr.curLe⟩) (by
          intro l hl
          simp only [List.mem_cons, List.not_mem_nil, or_false] at hl
          rcases hl with rfl | rfl
          · exact hx
          · exact hsne)
      obtain ⟨b, hb, ⟨x0, i0, hx0, hi0, hb0⟩, -⟩ := radius_core hS.toHonest hX.curLe vo (by rw [hvn]; exact hn) vcol hr
      cases hb
      refine ⟨(sum, r), ?_, fun _ => ?_⟩
      swap
      · obtain ⟨u, hu, hxu⟩ := (hvmem x0).1 hx0
        rw [hvn] at hi0
        exact ⟨u, i0, hu, hi0, by rw [hb0, hxu i0 hi0]⟩
      simp only [bind_ok, pure_ok, needSome_ok]
      exact ⟨v, hv, _, hr, r, rfl, s, hsc, sum, hsum, rfl⟩
  obtain ⟨q, hq, hatt⟩ := hok
  obtain ⟨⟨ρ', q1, q2⟩, q3, q4, q5, q6⟩ := lggSum_spec hS.toHonest hn hin h1 hρ hlo hq
  obtain ⟨X, R, hsh, -⟩ := q1.shape
  obtain ⟨x, hx⟩ := hx
  obtain ⟨u, hu⟩ := hne
  exact ⟨q, hq, hsh.layout, ⟨_, q6 x u hx hu⟩, hatt⟩

theorem radiusLoop_nonneg {S : Solver K} : ∀ {ds : List (ℕ × K)} {lp lp' : Lp K} {acc r : Option K},
    radiusLoop S lp ds acc = .ok (lp', r) → (∀ b, acc = some b → 0 ≤ b) → ∀ b, r = some b → 0 ≤ b
  | [], lp, lp', acc, r, h, ha => by
    simp only [radiusLoop, Except.ok.injEq, Prod.mk.injEq] at h
    obtain ⟨-, rfl⟩ := h
    exact ha
  | (n, sgn) :: ds, lp, lp', acc, r, h, ha => by
    simp only [radiusLoop, bind_ok] at h
    obtain ⟨⟨lp1, l⟩, hm, h⟩ := h
    refine radiusLoop_nonneg h fun b hb => ?_
    cases hb
    cases acc with
    | none => exact abs_nonneg _
    | some b => exact le_max_of_le_right (abs_nonneg _)

theorem aNorm_nonneg (a : Csr K) : 0 ≤ aNorm a := by
  unfold aNorm
  generalize List.map _ _ = l
  cases l with
  | nil => simp
  | cons x l =>
    induction l generalizing x with
    | nil => simp
    | cons y l ih => simp only [List.foldr_cons] at *; exact le_max_of_le_right (ih y)

theorem bloat_layout {s s' : Sys K} {ρ : Rep K} {a : K} (hs : s.Repr ρ) (h : bloat s a = .ok s') : s'.Layout := by
  obtain ⟨X, R, hsh, -⟩ := hs.shape
  exact (bloat_shape h hsh).1.layout

/-- `apply_approx_lgg` is not refused. -/
theorem approxLgg_accepts {S : Solver K} (hS : S.Complete) (T : Tols K) {c : LggCfg K} {d : Dyn K} {m : Mode K}
    (hd : d.For m) (hin : ∀ inp, m.inputs = some inp → inp.Shaped d.dims)
    (hrow : ∀ inp, m.inputs = some inp → inp.uCsc.nrows = inp.uRhs.length) {a : Csr K} (ha : m.a = some a)
    (hf : 0 ≤ c.factor a) (hbt : m.inputs.isSome = true → d.bTau.isSome = true) (hne : ∃ u, Admissible m u)
    (hbd : ∃ b, ∀ u, Admissible m u → ∀ i < d.dims, |inputAt m u i| ≤ b)
    (hβ : ∀ r, c.tol < aNorm a → m.inputs.isSome = true →
      (∃ u i, Admissible m u ∧ i < d.dims ∧ |inputAt m u i| = r) →
      (∀ u, Admissible m u → ∀ i < d.dims, |inputAt m u i| ≤ r) →
      c.tol < c.factor a * (r / aNorm a) ∧ c.factor a * (r / aNorm a) < c.maxBeta)
    {te : Option (TE K)} (ht : ∀ u, te = some u → u.Inv d) {st : SS K} {ρ : Rep K} (h : st.Sh d ρ)
    (h0 : st.stepIn = 0) (hlo : st.lp.NoLo) (hx : ∃ x, st.lp.Mem x) (hb : Bounded d.dims st.lp.Mem) :
    ∃ r, st.approxLgg S T c d m te = .ok r := by
  have hlay : st.lp.toSys.Layout := by obtain ⟨X, R, h, -⟩ := h.repr.shape; exact h.layout
  have hdim : st.lp.dims = d.dims := by rw [h.repr.n, h.n]
  obtain ⟨one, h1⟩ : ∃ c, st.lp.clone = .ok c := ⟨_, Lp.clone_accepts hlay⟩
  have h1e := clone_eq h.repr h1
  obtain ⟨t1, hg, ht1⟩ := getBasis_spec hd.laws ht 1
  obtain ⟨g1, g2⟩ := hd.laws.shape 0
  obtain ⟨s, hs⟩ := setBasisMatrix_accepts st.lp.toSys (m := d.ex 1) (g1.trans hdim.symm) (g2.trans hdim.symm)
  obtain ⟨lp1, rx, hr⟩ := radius_accepts hS h.repr.wf h.obj h.repr.curLe hx (by rw [hdim]; exact hb)
    (by rw [hdim]; exact hd.pos)
  obtain ⟨k1, k2⟩ := radiusLoop_keeps hr
  have hrx : 0 ≤ rx := radiusLoop_nonneg hr (by simp) rx rfl
  have hrs := setBasisMatrix_repr hs h.repr
  have slo : s.NoLo := by
    rw [Sys.noLo_iff] at *
    rw [setBasisMatrix_types hs]; exact hlo
  have hsne : ∃ x, s.Mem x := by
    obtain ⟨x, hx⟩ := hx
    exact ⟨_, (h.mem_one h0 hs _).2 ⟨x, hx, fun _ _ => rfl⟩⟩
  obtain ⟨q, hq, hql, hqx, hatt⟩ := lggSum_accepts hS T c.tau hd.pos hin hrow hne hbd
    (one := { st.lp with toSys := s }) hrs (show ρ.n = d.dims from h.n) slo hsne
  obtain ⟨⟨ρ', q1, q2⟩, q3, q4, q5, q6⟩ := lggSum_spec hS.toHonest hd.pos hin (one := { st.lp with toSys := s }) hrs
    (show ρ.n = d.dims from h.n) slo hq
  have hα : 0 ≤ c.alpha a rx q.2 := by
    unfold LggCfg.alpha
    split
    · exact le_rfl
    · exact mul_nonneg hf (add_nonneg hrx (div_nonneg q4 (aNorm_nonneg a)))
  have hms : ∃ ms, (if c.alpha a rx q.2 = 0 then .ok q.1.toSys else bloat q.1.toSys (c.alpha a rx q.2)) = Except.ok (ε := Err) ms ∧
      HullArg d.dims ms ∧ ms.Layout ∧ ∃ x, ms.Mem x := by
    split
    · exact ⟨_, rfl, q2 ▸ q1.hullArg q3, hql, hqx⟩
    · obtain ⟨ms, hms⟩ := bloat_accepts q.1.toSys hα "bloat"
      obtain ⟨k1, k2⟩ := bloat_mem q1 q3 hms
      obtain ⟨x, hx⟩ := hqx
      exact ⟨ms, hms, q2 ▸ k1, bloat_layout q1 hms, _, k2 x (fun _ => 0) hx (by simp [hα])⟩
  obtain ⟨ms, hms, m1, m2, m3⟩ := hms
  obtain ⟨lp, hlp, -⟩ := aggregateChull_accepts hS T.dblMax (n := d.dims) m 2
    (lps := [lp1, { q.1 with toSys := ms }]) (by simp) (by simp) (by
      intro l hl
      simp only [List.mem_cons, List.not_mem_nil, or_false] at hl
      rcases hl with rfl | rfl
      · rw [k1]; exact ⟨h.n ▸ h.repr.hullArg hlo, hlay, hx⟩
      · exact ⟨m1, m2, m3⟩)
  have hbeta : ∃ r, st.lggBetaPart c d m a q.2 t1 lp = .ok r := by
    unfold SS.lggBetaPart
    split
    · rename_i hc
      obtain ⟨b1, b2⟩ := hβ q.2 hc.1 hc.2 (hatt hc.2) q5
      obtain ⟨bt, hbt⟩ := Option.isSome_iff_exists.1 (hbt hc.2)
      obtain ⟨lp2, hlp2⟩ : ∃ l2, lp.setMinDir (List.replicate lp.dims (-1)) = .ok l2 :=
        ⟨_, by unfold Lp.setMinDir; rw [if_pos (by simp)]⟩
      refine ⟨(some { t1 with lgg := true, oneIe := some bt },
        { st with lp := lp2, lggBeta := some (c.factor a * (q.2 / aNorm a)) }), ?_⟩
      simp only [bind_ok, assert_ok, pure_ok, useLgg, needSome_ok]
      exact ⟨(), b1, (), b2, lp2, hlp2, _, ⟨t1, rfl, bt, hbt, rfl⟩, rfl⟩
    · exact ⟨_, rfl⟩
  obtain ⟨r, hr2⟩ := hbeta
  refine ⟨r, ?_⟩
  simp only [SS.approxLgg, bind_ok, needSome_ok]
  subst h1e
  exact ⟨a, ha, _, h1, _, hg, s, hs, _, hr, rx, rfl, q, hq, ms, hms, lp, hlp, hr2⟩

/-- `apply_approx_chull` is not refused. -/
theorem approxChull_accepts {S : Solver K} (hS : S.Complete) (T : Tols K) {d : Dyn K} {m : Mode K}
    (hd : d.For m) {a : Csr K} (ha : m.a = some a) (had : a.ncols = d.dims) (hne : ∃ u, Admissible m u)
    {te : Option (TE K)} (ht : ∀ u, te = some u → u.Inv d) {st : SS K} {ρ : Rep K} (h : st.Sh d ρ)
    (hie : d.nmat ≠ none → st.lp.ie.isSome = true)
    (h0 : st.stepIn = 0) (hlo : st.lp.NoLo) (hx : ∃ x, st.lp.Mem x) :
    ∃ r, st.approxChull S T d m te = .ok r := by
  have hlay : st.lp.toSys.Layout := by obtain ⟨X, R, h, -⟩ := h.repr.shape; exact h.layout
  have hdim : st.lp.dims = d.dims := by rw [h.repr.n, h.n]
  obtain ⟨one, h1⟩ : ∃ c, st.lp.clone = .ok c := ⟨_, Lp.clone_accepts hlay⟩
  have h1e := clone_eq h.repr h1
  obtain ⟨t1, hg, ht1⟩ := getBasis_spec hd.laws ht 1
  obtain ⟨g1, g2⟩ := hd.laws.shape 0
  obtain ⟨s, hs⟩ := setBasisMatrix_accepts st.lp.toSys (m := d.ex 1) (g1.trans hdim.symm) (g2.trans hdim.symm)
  obtain ⟨X, R, hsh, -⟩ := h.repr.shape
  have hv1 := (setBasisMatrix_shape hs hsh).2.1
  have hs2 : ∃ s2, addInputOpt s d.nmat m = .ok s2 := by
    cases hN : d.nmat with
    | none => exact ⟨_, rfl⟩
    | some N =>
      obtain ⟨inp, hi, hic⟩ := hd.inp N hN
      exact addInputEffects_accepts (s := s) (n := N) (mode := m) (inp := inp) (a := a)
        (by rw [hv1.ie]; exact hie (by simp [hN])) hi ha hic.symm
        (by rw [hv1.dims, hdim, (hd.laws.inShape N hN).1]) (by rw [hv1.dims, hdim, had])
  obtain ⟨s2, hs2⟩ := hs2
  obtain ⟨⟨ρ', r1, r2⟩, a1, a2⟩ := chullSecond_spec hd h h0 hlo hs hs2
  obtain ⟨lp, hlp, -⟩ := aggregateChull_accepts hS T.dblMax (n := d.dims) m 2
    (lps := [st.lp, { st.lp with toSys := s2 }]) (by simp) (by simp) (by
      intro l hl
      simp only [List.mem_cons, List.not_mem_nil, or_false] at hl
      rcases hl with rfl | rfl
      · exact ⟨h.n ▸ h.repr.hullArg hlo, hlay, hx⟩
      · refine ⟨a1, by obtain ⟨X, R, h, -⟩ := r1.shape; exact h.layout, ?_⟩
        obtain ⟨x, hx⟩ := hx
        obtain ⟨u, hu⟩ := hne
        exact ⟨_, (a2 _).2 ⟨x, hx, u, hu, fun _ _ => rfl⟩⟩)
  subst h1e
  refine ⟨(some t1, { st with lp := lp }), ?_⟩
  simp only [SS.approxChull, bind_ok, pure_ok]
  exact ⟨_, h1, _, hg, s, hs, s2, hs2, lp, hlp, rfl⟩

theorem aggregateChull_ie {S : Solver K} {M : K} {l1 l2 rv : Lp K} {mode : Mode K}
    (h : aggregateChull S M [l1, l2] mode = .ok rv) : rv.ie.isSome = mode.inputs.isSome := by
  rw [aggregateChull] at h
  simp only [bind_ok] at h
  obtain ⟨c1, -, c2, -, s, -, h⟩ := h
  obtain ⟨-, -, -, -, -, -, -, -, h5, -⟩ := fromConstraints_ok h (by rintro ns ⟨⟩; rfl)
  rw [h5]
  split <;> simp_all

theorem approxLgg_ie {S : Solver K} {T : Tols K} {c : LggCfg K} {d : Dyn K} {m : Mode K}
    {te te' : Option (TE K)} {st st' : SS K} (h : st.approxLgg S T c d m te = .ok (te', st')) :
    st'.lp.ie.isSome = m.inputs.isSome := by
  simp only [SS.approxLgg, bind_ok, needSome_ok] at h
  obtain ⟨a', ha', one, h1, g, hg, s, hsb, r1, hrad, rx, hr1, q, hq, ms, hms, lp, hlp, hs⟩ := h
  rw [(lggBetaPart_lp hs).1]
  exact aggregateChull_ie hlp

theorem checkBasis_accepts {d : Dyn K} {t : TE K} {k : ℕ} {b ie : Mat K} (h1 : t.basis = some b)
    (h2 : b.nr = d.dims ∧ b.nc = d.dims) (hk : ¬ (d.inputs = 0 ∨ k = 0)) (h3 : t.ie = some ie)
    (h4 : ie.nr = d.dims ∧ ie.nc = if t.lgg then d.inputs + d.dims else d.inputs) :
    checkBasis d t k = .ok (b, some ie) := by
  simp only [checkBasis, bind_ok, needSome_ok, assert_ok]
  refine ⟨b, h1, (), h2, ?_⟩
  rw [if_neg hk]
  simp only [bind_ok, needSome_ok, assert_ok, pure_ok]
  exact ⟨ie, h3, (), h4, rfl⟩

theorem LggTe.next_accepts {m : Mode K} {d : Dyn K} {inp : Inputs K} {bt : Mat K} (hd : LggDyn m d inp bt) {k : ℕ}
    {t : TE K} (ht : LggTe d bt k t) : ∃ r, getBasis d (some t) (k + 1) = .ok r := by
  obtain ⟨N, hN, hNc⟩ := hd.nmat
  have hsh := hd.laws.shape 0
  have hinp := hd.inputs
  have hnc := hd.btNc
  have hip := hd.inPos
  have key : ∃ t', t.assign d (k + 1) = .ok t' ∧ t'.lgg = true ∧ (∃ b, t'.basis = some b ∧ b.nr = d.dims ∧ b.nc = d.dims) ∧
      ∃ ie, t'.ie = some ie ∧ ie.nr = d.dims ∧ ie.nc = d.inputs + d.dims := by
    cases k with
    | zero =>
      refine ⟨{ t with basis := some t.one, ie := some ⟨bt.nr, bt.nc + (Mat.id d.dims : Mat K).nc, fun i j =>
        if j < bt.nc then bt.e i j else (Mat.id d.dims : Mat K).e i (j - bt.nc)⟩, curStep := 1 }, ?_, ht.lgg,
        ⟨_, rfl, by rw [ht.one]; exact hsh⟩, _, rfl, hd.btNr, by simp only [Mat.id]; omega⟩
      unfold TE.assign
      rw [if_neg (by omega), if_pos (by omega)]
      simp only [bind_ok, pure_ok, TE.firstIe, ht.lgg, hN, Option.isSome_some, and_self, if_true, ht.oneIe,
        needSome_ok, Option.some.injEq, Mat.hcat, need_ok]
      exact ⟨_, ⟨bt, rfl, _, ⟨(), hd.btNr, rfl⟩, rfl⟩, rfl⟩
    | succ j =>
      obtain ⟨c1, c2, ie, c3, c4⟩ := ht.cur (by omega)
      have hat := Dyn.at_shape hd.laws (j + 1)
      have hmin : min d.inputs ie.nc = bt.nc := by rw [c4.nc, hinp, hd.btNc]; omega
      have hq : ∃ e1, t.quickIe d (d.at (j + 1)).1 = .ok (some e1) ∧ e1.nr = d.dims ∧ e1.nc = d.inputs + d.dims := by
        simp only [TE.quickIe, hN, ht.lgg, if_true, c3, bind_ok, needSome_ok, Option.some.injEq, Mat.mul?, need_ok,
          Mat.hcat, ht.one, pure_ok]
        refine ⟨_, ⟨ie, rfl, _, ⟨(), by simp only [Mat.takeCols, hsh.2, c4.nr], rfl⟩, _,
          ⟨(), by simp only [Mat.mul]; rw [hsh.1, hat.1], rfl⟩, rfl⟩, hsh.1, ?_⟩
        simp only [Mat.mul, Mat.takeCols, hmin, hat.2]; omega
      obtain ⟨e1, q1, q2, q3⟩ := hq
      refine ⟨{ t with basis := some ((d.at (j + 1)).1.mul (d.ex 1)), ie := some e1, curStep := j + 1 + 1 }, ?_, ht.lgg,
        ⟨_, rfl, hat.1, hsh.2⟩, e1, rfl, q2, q3⟩
      unfold TE.assign
      rw [if_neg (by omega), if_neg (by omega), if_pos (by omega)]
      simp only [bind_ok, pure_ok, needSome_ok, c2, Option.some.injEq, ht.one, Mat.mul?, need_ok]
      exact ⟨_, rfl, _, ⟨(), by rw [hat.2, hsh.1], rfl⟩, _, q1, rfl⟩
  obtain ⟨t', k1, k2, ⟨b, b1, b2⟩, ie, i1, i2⟩ := key
  refine ⟨(t', (b, some ie)), ?_⟩
  simp only [getBasis, Option.getD_some, bind_ok, pure_ok]
  exact ⟨t', k1, _, checkBasis_accepts b1 b2 (by omega) i1 (by rw [k2]; exact i2), rfl⟩

theorem addInputEffects_lgg_accepts {s : Sys K} {n : Mat K} {mode : Mode K} {inp : Inputs K} {a : Csr K} {β : K}
    (hie : s.ie.isSome = true) (hin : mode.inputs = some inp) (ha : mode.a = some a)
    (h1 : n.nc = inp.b.ncols + s.dims) (h2 : n.nr = s.dims) (h3 : a.ncols = s.dims) (h4 : 0 < s.dims) :
    ∃ s', addInputEffects s n mode (some β) = .ok s' := by
  obtain ⟨p, hp⟩ := Option.isSome_iff_exists.1 hie
  simp only [addInputEffects, bind_ok, assert_ok, need_ok, needSome_ok, setCsc_ok]
  refine ⟨_, (), hie, (), by rw [hin]; rfl, p, hp, inp, hin, a, ha, (), by simp; omega, (),
    by omega, (), by omega, (), by omega, ⟨⟨?_, ?_⟩, rfl⟩⟩
  · simp [Sys.numRows, Sys.addRowsLE, Sys.addCols]
    omega
  · simp [Sys.numCols, Sys.addRowsLE, Sys.addCols]

/-- A step after `apply_approx_lgg` is not refused. -/
theorem LggOk.step_accepts {m : Mode K} {d : Dyn K} {inp : Inputs K} {bt : Mat K} (hd : LggDyn m d inp bt)
    {a : Csr K} (ha : m.a = some a) (had : a.ncols = d.dims) {β : K} {X : (ℕ → K) → Prop} {te : Option (TE K)}
    {st : SS K} (h : LggOk m d inp bt β X te st) (hie : st.lp.ie.isSome = true) :
    ∃ te' st', st.step d m te none = .ok (te', st') ∧ st'.lp.ie.isSome = true := by
  obtain ⟨t, rfl, ht⟩ := h.te
  obtain ⟨r, hr⟩ := ht.next_accepts hd
  obtain ⟨k1, k2, ie, k3, k4⟩ := ht.next hd hr
  obtain ⟨ρ, hρ, hn, hB, hlen, hgood, hm, hpar⟩ := h.set
  obtain ⟨ies, hies⟩ := Option.isSome_iff_exists.1 h.ies
  have hdims : st.lp.dims = d.dims := by rw [hρ.n, hn]
  have hat := Dyn.at_shape hd.laws (st.stepIn + 1)
  obtain ⟨s1, hs1⟩ := setBasisMatrix_accepts st.lp.toSys (m := r.2.1)
    (by rw [hdims, k2]; exact hat.1) (by rw [hdims, k2]; exact hat.2)
  obtain ⟨X', R, hsh, -⟩ := hρ.shape
  have hv1 := (setBasisMatrix_shape hs1 hsh).2.1
  have hie1 : s1.ie.isSome = true := by rw [hv1.ie]; exact hie
  have hd1 : s1.dims = d.dims := by rw [hv1.dims, hdims]
  obtain ⟨s2, hs2⟩ := addInputEffects_lgg_accepts (s := s1) (n := ie) (β := β) hie1 hd.has ha
    (by rw [k4.nc, hd.btNc, hd1]) (by rw [k4.nr, hd1]) (by rw [had, hd1]) (by rw [hd1]; exact hd.pos)
  have hv2 := (addInputEffects_lgg_shape hs2 hd.has hd.shaped.rows (setBasisMatrix_shape hs1 hsh).1).2.1
  refine ⟨some r.1, { st with
    lp := { st.lp with toSys := s2 }, basis := some r.2.1, ies := some (ies ++ [ie]),
    stepIn := st.stepIn + 1, steps := (st.steps.1 + (st.stepIn + 1 - st.stepIn), st.steps.2 + (st.stepIn + 1 - st.stepIn)) },
    ?_, ?_⟩
  · unfold SS.step
    simp only [Option.getD_none]
    rw [if_neg (by omega), if_neg (by omega)]
    simp only [bind_ok, pure_ok]
    refine ⟨r, hr, s1, hs1, (r.1, s2, some (ies ++ [ie])), ?_, rfl⟩
    simp only [SS.stepInputs, k3, hies, bind_ok, needSome_ok, Option.some.injEq, pure_ok, h.beta,
      Nat.sub_self, List.range'_zero, ieLoop]
    exact ⟨_, rfl, _, rfl, s2, hs2, rfl⟩
  · show s2.ie.isSome = true
    rw [hv2.ie]; exact hie1

end Hylaa
