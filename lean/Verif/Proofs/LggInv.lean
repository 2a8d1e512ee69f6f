import Verif.Proofs.LggCov

/-! Invariant intersection of the initial sets of a run with the LGG model. -/

set_option linter.unusedSectionVars false

namespace Hylaa
open Spec

section
variable {K : Type} [Field K] [LinearOrder K] [IsStrictOrderedRing K]

/-- Only `≤` rows were added. -/
structure Sys.More (s s' : Sys K) : Prop where
  dims : s'.dims = s.dims
  cur : s'.cur = s.cur
  rows : ∃ l, s'.rows = s.rows ++ l ∧ ∀ r ∈ l, r.ty = .up

theorem Sys.More.refl (s : Sys K) : s.More s := ⟨rfl, rfl, [], by simp, by simp⟩

theorem Sys.More.of_eq {s s' : Sys K} (h : s' = s) : s.More s' := by rw [h]; exact .refl s

theorem Sys.More.trans {s s' s'' : Sys K} (h : s.More s') (g : s'.More s'') : s.More s'' := by
  obtain ⟨l, h1, h2⟩ := h.rows
  obtain ⟨l', g1, g2⟩ := g.rows
  exact ⟨g.dims.trans h.dims, g.cur.trans h.cur, l ++ l', by rw [g1, h1]; simp, fun r hr => by
    rcases List.mem_append.1 hr with hr | hr
    · exact h2 r hr
    · exact g2 r hr⟩

theorem Sys.More.sat {s s' : Sys K} (h : s.More s') {v : ℕ → K} (hv : s'.Sat v) : s.Sat v := by
  obtain ⟨l, h1, -⟩ := h.rows
  intro r hr
  exact hv r (by rw [h1]; simp [hr])

theorem Sys.More.noLo {s s' : Sys K} (h : s.More s') (hs : s.NoLo) : s'.NoLo := by
  obtain ⟨l, h1, h2⟩ := h.rows
  intro r hr
  rw [h1] at hr
  rcases List.mem_append.1 hr with hr | hr
  · exact hs r hr
  · rw [h2 r hr]; decide

/-- The check of one invariant condition. -/
theorem checkInv_spec {S : Solver K} (hS : S.Honest) {tol : K} {m : Mode K} {n : ℕ} (hwf : m.InvWF n)
    {lc : LinCon K} (hlc : lc ∈ m.inv) {lp lp' : Lp K} {ans : Option Bool} (ho : lp.ObjInv)
    (h : checkIntersection S lp lc.negate tol = .ok (lp', ans)) :
    lp'.toSys = lp.toSys ∧ lp'.ObjInv ∧
    (ans ≠ some true ↔ ∀ x, lp.Mem x → dot lc.row x < lc.rhs + tol) := by
  obtain ⟨c1, c2, c3, c4, c5, c6⟩ := checkIntersection_spec hS ho
      (by have := hwf.nodup lc hlc; simpa [LinCon.negate, negRow, Function.comp_def] using this)
      (by
        intro p hp
        simp only [LinCon.negate, negRow, List.mem_map] at hp
        obtain ⟨q, hq, rfl⟩ := hp
        simp only [LinCon.negate]
        rw [hwf.ncols lc hlc]; exact hwf.lt lc hlc q hq) h
  refine ⟨c1, c2, ?_⟩
  constructor
  · intro hne x hx
    by_contra hcon
    refine hne (c5.2 ⟨x, hx, ?_⟩)
    simp only [LinCon.negate, dot_negRow]
    linarith [not_lt.1 hcon]
  · intro hall ht
    obtain ⟨x, hx, hle⟩ := c5.1 ht
    simp only [LinCon.negate, dot_negRow] at hle
    have := hall x hx
    linarith

/-- The loop, when the conditions it looks at have no rows yet. -/
theorem invLoop_more {S : Solver K} (hS : S.Honest) {T : Tols K} (hT : 0 < T.inter) {d : Dyn K}
    {m : Mode K} (hd : d.For m) (lcs : List (LinCon K)) (hlcs : ∀ lc ∈ lcs, lc ∈ m.inv)
    {st st' : SS K} {ρ : Rep K} (h : st.Sh d ρ) {idx : ℕ} {ops ops' : List (ℕ × Bool)}
    (hrows : ∀ i r, idx ≤ i → st.invRows[i]? = some r → r = none)
    (hl : invLoop S T st idx lcs ops = .ok (st', true, ops')) :
    st' = { st with lp := st'.lp, invRows := st'.invRows } ∧
    st.lp.toSys.More st'.lp.toSys ∧ (∃ ρ', st'.Sh d ρ') ∧
    (∀ x, st.lp.Mem x → (∀ lc ∈ lcs, dot lc.row x ≤ lc.rhs) → st'.lp.Mem x) ∧
    ∀ lc ∈ lcs, ∀ x, st'.lp.Mem x → dot lc.row x < lc.rhs + T.inter := by
  induction lcs generalizing st ρ idx ops with
  | nil =>
    simp only [invLoop, Except.ok.injEq, Prod.mk.injEq] at hl
    obtain ⟨rfl, -, rfl⟩ := hl
    exact ⟨rfl, .refl _, ⟨ρ, h⟩, fun _ hx _ => hx, by simp⟩
  | cons lc lcs ih =>
    simp only [invLoop, bind_ok] at hl
    obtain ⟨⟨lp1, ans⟩, hc, hl⟩ := hl
    have hlc : lc ∈ m.inv := hlcs lc (by simp)
    obtain ⟨c1, c2, c3⟩ := checkInv_spec hS hd.wf hlc h.obj hc
    have h1 := h.withLp c1 c2
    split at hl
    · simp only [bind_ok] at hl
      obtain ⟨⟨st2, b⟩, ha, ⟨lp3, f3⟩, hf, hl⟩ := hl
      obtain ⟨a1, a2, ρ2, a3, a4⟩ := h1.addInv hS hd hlc ha
      obtain ⟨g1, g2, g3⟩ := isFeasible_spec hS hf a3.obj
      have h3 := a3.withLp g1 g2
      have hk2 : st2.stepIn = st.stepIn := by rw [a1]
      -- the new system
      have hmore : st.lp.toSys.More st2.lp.toSys ∧ ∀ i r, idx + 1 ≤ i → st2.invRows[i]? = some r → r = none := by
        simp only [SS.addInv, bind_ok, needSome_ok] at ha
        obtain ⟨old, ho, bm, hb, ha⟩ := ha
        obtain rfl := hrows idx old le_rfl ho
        simp only [bind_ok, pure_ok, Prod.mk.injEq] at ha
        obtain ⟨⟨s, row⟩, hr, rfl, -⟩ := ha
        obtain ⟨c, -, -, -, hs'⟩ := addInitConstraint_none hr
        refine ⟨?_, fun i r hi hr => ?_⟩
        · simp only [hs', c1]
          exact ⟨rfl, rfl, _, rfl, by simp [LRow.withCoefs]⟩
        · simp only at hr
          rw [List.getElem?_set_ne (by omega)] at hr
          exact hrows i r (by omega) hr
      have hmem2 : ∀ x, st2.lp.Mem x ↔ st.lp.Mem x ∧ dot lc.row x ≤ lc.rhs := by
        intro x
        rw [a3.mem, h.mem]
        have hdot : ∀ y v, (∀ i < d.dims, x i = d.val st.stepIn y v i) →
            dot lc.row x = dot lc.row (d.val st.stepIn y v) := fun y v hx =>
          dot_congr fun p hp => hx p.1 (hd.wf.lt lc hlc p hp)
        rw [hk2]
        constructor
        · rintro ⟨y, v, hp, hx⟩
          obtain ⟨q1, q2⟩ := (a4 y v).1 hp
          exact ⟨⟨y, v, q1, hx⟩, by rw [hdot y v hx]; exact q2⟩
        · rintro ⟨⟨y, v, hp, hx⟩, hle⟩
          exact ⟨y, v, (a4 y v).2 ⟨hp, by rw [← hdot y v hx]; exact hle⟩, hx⟩
      split at hl
      · obtain ⟨b1, b2, b3, b4, b5⟩ := ih (fun q hq => hlcs q (by simp [hq])) h3 hmore.2 hl
        have hm3 : ∀ x, (lp3.Mem x ↔ st2.lp.Mem x) := fun x => by rw [g1]
        have b2' : st2.lp.toSys.More st'.lp.toSys := by
          have := b2; simp only [g1] at this; exact this
        refine ⟨by rw [b1, a1], hmore.1.trans b2', b3, fun x hx hall => ?_, fun q hq x hx => ?_⟩
        · exact b4 x ((hm3 x).2 ((hmem2 x).2 ⟨hx, hall lc (by simp)⟩)) fun q hq => hall q (by simp [hq])
        · rcases List.mem_cons.1 hq with rfl | hq
          · obtain ⟨v, hv, hvx⟩ := hx
            have hx2 : st2.lp.Mem x := ⟨v, b2'.sat hv, fun i hi => by
              have := hvx i (by rw [b2'.dims]; exact hi)
              rw [b2'.cur] at this; exact this⟩
            have := ((hmem2 x).1 hx2).2
            linarith
          · exact b5 q hq x hx
      · simp only [pure_ok, Prod.mk.injEq] at hl
        exact absurd hl.2.1 (by simp)
    · rename_i hans
      obtain ⟨b1, b2, b3, b4, b5⟩ := ih (fun q hq => hlcs q (by simp [hq])) h1
        (fun i r hi hr => hrows i r (by omega) hr) hl
      have b2' : st.lp.toSys.More st'.lp.toSys := by
        have := b2; simp only [c1] at this; exact this
      have hm1 : ∀ x, (lp1.Mem x ↔ st.lp.Mem x) := fun x => by rw [c1]
      refine ⟨by rw [b1], b2', b3, fun x hx hall => b4 x ((hm1 x).2 hx) fun q hq => hall q (by simp [hq]), 
        fun q hq x hx => ?_⟩
      rcases List.mem_cons.1 hq with rfl | hq
      · obtain ⟨v, hv, hvx⟩ := hx
        exact c3.1 hans x ⟨v, b2'.sat hv, fun i hi => by
              have := hvx i (by rw [b2'.dims]; exact hi)
              rw [b2'.cur] at this; exact this⟩
      · exact b5 q hq x hx

/-- The loop finds nothing outside. -/
theorem invLoop_quiet {S : Solver K} (hS : S.Honest) {T : Tols K} {m : Mode K} {n : ℕ} (hwf : m.InvWF n)
    (lcs : List (LinCon K)) (hlcs : ∀ lc ∈ lcs, lc ∈ m.inv) {st st' : SS K} (ho : st.lp.ObjInv) {idx : ℕ}
    {f : Bool} {ops ops' : List (ℕ × Bool)} (hin : ∀ lc ∈ lcs, ∀ x, st.lp.Mem x → dot lc.row x < lc.rhs + T.inter)
    (hl : invLoop S T st idx lcs ops = .ok (st', f, ops')) :
    f = true ∧ ops' = ops ∧ st'.lp.toSys = st.lp.toSys ∧ st'.lp.ObjInv ∧ st' = { st with lp := st'.lp } := by
  induction lcs generalizing st idx ops with
  | nil =>
    simp only [invLoop, Except.ok.injEq, Prod.mk.injEq] at hl
    obtain ⟨rfl, rfl, rfl⟩ := hl
    exact ⟨rfl, rfl, rfl, ho, rfl⟩
  | cons lc lcs ih =>
    simp only [invLoop, bind_ok] at hl
    obtain ⟨⟨lp1, ans⟩, hc, hl⟩ := hl
    have hlc : lc ∈ m.inv := hlcs lc (by simp)
    obtain ⟨c1, c2, c3⟩ := checkInv_spec hS hwf hlc ho hc
    rw [if_neg (c3.2 (hin lc (by simp)))] at hl
    obtain ⟨b1, b2, b3, b4, b5⟩ := ih (st := { st with lp := lp1 }) (fun q hq => hlcs q (by simp [hq])) c2
      (fun q hq x hx => hin q (by simp [hq]) x (by simpa only [c1] using hx)) hl
    exact ⟨b1, b2, b3.trans c1, b4, by rw [b5]⟩

end

/-- No point of a dropped set is inside the invariant. -/
theorem invLoop_out {K : Type} [Field K] [LinearOrder K] [IsStrictOrderedRing K] {S : Solver K} (hS : S.Honest)
    {T : Tols K} (hT : 0 ≤ T.inter) {d : Dyn K} {m : Mode K} (hd : d.For m) {st st' : SS K} {ρ : Rep K}
    (h : st.Sh d ρ) {ops : List (ℕ × Bool)} (hl : st.intersectInvariant S T m = .ok (st', false, ops)) {x : ℕ → K}
    (hx : st.lp.Mem x) : ¬ InvEps 0 m x := by
  intro hi
  obtain ⟨-, -, -, ρ', -, -, a6, -, a8⟩ := invLoop_spec hS hT hd m.inv (fun lc hlc => hlc) h hl
  obtain ⟨y, v, hp, hv⟩ := (h.mem x).1 hx
  refine a8 rfl y v (a6 y v hp fun lc hlc => ?_)
  rw [← dot_congr fun p hp => hv p.1 (hd.wf.lt lc hlc p hp)]
  simpa using hi lc hlc

variable {m : Mode ℝ} {a : Csr ℝ}

/-- All points are inside the invariant, up to the tolerance. -/
def SS.Within (T : Tols ℝ) (m : Mode ℝ) (st : SS ℝ) : Prop :=
  ∀ lc ∈ m.inv, ∀ x, st.lp.Mem x → dot lc.row x < lc.rhs + T.inter

theorem LggFresh.setLp {d : Dyn ℝ} {X : (ℕ → ℝ) → Prop} {st : SS ℝ} (h : LggFresh d m X st) {lp : Lp ℝ}
    (h1 : lp.toSys = st.lp.toSys) (h2 : lp.ObjInv) : LggFresh d m X { st with lp := lp } := by
  obtain ⟨ρ, hρ⟩ := h.sh
  refine ⟨⟨ρ, hρ.withLp h1 h2⟩, h.zero, h.rows, h.ies, ?_, ?_, ?_⟩
  · simp only [h1]; exact h.noLo
  · simp only [h1]; exact h.cols
  · simp only [h1]; exact h.sub

theorem LggFresh.aggstr {d : Dyn ℝ} {X : (ℕ → ℝ) → Prop} {st : SS ℝ} (h : LggFresh d m X st) (s : Option String) :
    LggFresh d m X { st with aggstr := s } := by
  obtain ⟨ρ, hρ⟩ := h.sh
  exact ⟨⟨ρ, ⟨hρ.repr, hρ.obj, hρ.rows, hρ.lgg, hρ.basis, hρ.n, hρ.B, hρ.Ns, hρ.ies, hρ.m⟩⟩, h.zero, h.rows, h.ies,
    h.noLo, h.cols, h.sub⟩

/-- **`setup` of an initial set.** -/
theorem LggFresh.setup {S : Solver ℝ} (hS : S.Honest) {T : Tols ℝ} (hT : 0 < T.inter) {d : Dyn ℝ} (hd : d.For m)
    {X : (ℕ → ℝ) → Prop} {st st' : SS ℝ} (h : LggFresh d m X st) {ops : List (ℕ × Bool)}
    (hl : st.intersectInvariant S T m = .ok (st', true, ops)) :
    LggFresh d m (fun x => X x ∧ InvEps 0 m x) { st' with invRows := m.inv.map fun _ => none } ∧
    ({ st' with invRows := m.inv.map fun _ => none } : SS ℝ).Within T m ∧
    st'.mode = st.mode ∧ st'.steps = st.steps := by
  obtain ⟨ρ, hρ⟩ := h.sh
  obtain ⟨a1, a2, ⟨ρ', a3⟩, a4, a5⟩ := invLoop_more hS hT hd m.inv (fun lc hlc => hlc) hρ
    (fun i r _ hr => by
      rw [h.rows, List.getElem?_map] at hr
      cases hq : m.inv[i]? <;> rw [hq] at hr <;> cases hr; rfl) hl
  have e1 : st'.stepIn = st.stepIn := by rw [a1]
  have e2 : st'.ies = st.ies := by rw [a1]
  refine ⟨⟨⟨ρ', ⟨a3.repr, a3.obj, ?_, a3.lgg, a3.basis, a3.n, a3.B, a3.Ns, a3.ies, a3.m⟩⟩, e1.trans h.zero, rfl,
    e2.trans h.ies, a2.noLo h.noLo, ?_, fun x hx => ?_⟩, a5, by rw [a1], by rw [a1]⟩
  · intro i r hr
    simp only [List.getElem?_map] at hr
    cases hq : m.inv[i]? <;> rw [hq] at hr <;> cases hr
  · intro v hv i hi
    have := h.cols v (a2.sat hv) i (by rw [← a2.dims]; exact hi)
    rw [this]; simp only; rw [a2.cur]
  · exact a4 x (h.sub x hx.1) fun lc hlc => by simpa using hx.2 lc hlc

/-- **Taking an initial set from the waiting list**: the invariant has nothing to do. -/
theorem LggFresh.pop {S : Solver ℝ} (hS : S.Honest) {T : Tols ℝ} {d : Dyn ℝ} (hd : d.For m)
    {X : (ℕ → ℝ) → Prop} {st st' : SS ℝ} (h : LggFresh d m X st) (hw : st.Within T m) {f : Bool}
    {ops : List (ℕ × Bool)} (hl : st.intersectInvariant S T m = .ok (st', f, ops)) :
    f = true ∧ ops = [] ∧ LggFresh d m X st' ∧ st' = { st with lp := st'.lp } := by
  obtain ⟨ρ, hρ⟩ := h.sh
  obtain ⟨b1, b2, b3, b4, b5⟩ := invLoop_quiet hS hd.wf m.inv (fun lc hlc => hlc) hρ.obj hw hl
  refine ⟨b1, b2, ?_, b5⟩
  rw [b5]
  exact h.setLp b3 b4

/-- **Invariant intersection during a run.** -/
theorem LggCov.intersect {S : Solver ℝ} (hS : S.Honest) {T : Tols ℝ} (hT : 0 ≤ T.inter) {c : LggCfg ℝ}
    (hτ : 0 < c.tau) (hm : LggMode c m a) {X : (ℕ → ℝ) → Prop} {n : ℕ} {te : Option (TE ℝ)} {st st' : SS ℝ}
    (h : LggCov c m a X T.inter n te st) (hn : n ≤ st.stepIn + 1) {f : Bool} {ops : List (ℕ × Bool)}
    (hl : st.intersectInvariant S T m = .ok (st', f, ops)) :
    LggCov c m a X T.inter (st.stepIn + 1) te st' ∧ st' = { st with lp := st'.lp, invRows := st'.invRows } ∧
    (f = false → ∀ Tm w u, Mot m a X Tm w u → ¬ (st.stepIn + 1) * c.tau ≤ Tm) := by
  by_cases hx : LggExact c m a
  · obtain ⟨rv, Y, g1, g2, g3, g4, g5⟩ := h.exact hx
    have hfor : (dynOf a m.inputs c.tau).For m := hm.real.dyn c.tau
    obtain ⟨b1, -, b3, b4⟩ := g4.intersectInvariant hS hT hfor hm.plain hn hl
    refine ⟨⟨?_, fun hx' => absurd hx hx', fun _ => ⟨rv, Y, g1, g2, g3, b3.mono le_rfl (fun h => h.elim), g5⟩⟩, b1, 
      fun hf Tm w u hw hle => ?_⟩
    · obtain ⟨⟨ρ, hρ, -⟩, -⟩ := b3; exact hρ.obj
    have hk : (st.stepIn : ℝ) * c.tau < Tm := by
      have : ((st.stepIn : ℝ) + 1) * c.tau = st.stepIn * c.tau + c.tau := by ring
      linarith
    have h0 : 0 ≤ (st.stepIn : ℝ) * c.tau := by positivity
    have hfl := hw.flow hτ hm hx g1 g2 le_rfl st.stepIn (by linarith)
    exact b4 hf _ _ (g5 Tm w u hw 0 le_rfl hτ.le (by linarith)) hfl (hw.inv _ (by linarith) (by linarith))
  · have hinv : m.inv = [] := by
      rcases hm.plain with hi | hi
      · exact absurd (fun hh => by simp [hi] at hh) hx
      · exact hi
    unfold SS.intersectInvariant at hl
    rw [hinv] at hl
    simp only [invLoop, Except.ok.injEq, Prod.mk.injEq] at hl
    obtain ⟨rfl, rfl, rfl⟩ := hl
    exact ⟨⟨h.obj, h.wide, fun hx' => absurd hx' hx⟩, rfl, by simp⟩

end Hylaa
