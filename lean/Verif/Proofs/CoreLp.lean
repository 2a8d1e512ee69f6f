import Verif.Model.Core
import Verif.Spec.Run
import Verif.Proofs.NoLo
import Verif.Proofs.SetOk
import Verif.Proofs.Guard
import Verif.Props.Chull
import Verif.Props.Query

/-! What the heap operations of the reachability computation do to sets. -/

set_option linter.unusedSectionVars false

namespace Hylaa
open Spec
variable {K : Type} [Field K] [LinearOrder K] [IsStrictOrderedRing K]

/-- The automaton seen by the specification, with transitions taken only in states satisfying `R`. -/
def Env.hybOn (E : Env K) (R : ℕ → (ℕ → K) → Prop) : Hyb K :=
  ⟨E.ha, E.dyn, E.set.urgent, E.set.numSteps, R⟩

/-- The automaton seen by the specification. -/
def Env.hyb (E : Env K) : Hyb K := E.hybOn fun _ _ => True

/-- (For the proofs) the predicate `R` of `Env.hybOn`. -/
class JumpAt (K : Type) where
  at_ : ℕ → (ℕ → K) → Prop

/-- Unless said otherwise: everywhere. -/
instance (priority := low) : JumpAt K := ⟨fun _ _ => True⟩

/-- `Env.hybOn` in the proofs. -/
def Env.hybJ [JumpAt K] (E : Env K) : Hyb K := E.hybOn JumpAt.at_

/-- A transition out of a mode with `n` variables, as `set_guard` and `set_reset` accept it (csr
matrices without repeated indices). -/
structure TrOk (n : ℕ) (t : Tr K) : Prop where
  guard : ∀ g, t.guard = some g → GuardOk g ∧ g.1.ncols ≤ n
  resetNe : t.reset.isSome → (t.reset.getD ⟨0, []⟩).rows ≠ []
  resetWF : ∀ r, t.reset = some r → r.WF
  minkWF : ∀ r, t.mink = some r → r.WF
  minkCWF : ∀ r, t.minkC = some r → r.WF
  minkDims : ∀ m c, t.mink = some m → t.minkC = some c → c.ncols = m.ncols

/-- Standing assumptions on the environment: discrete time (`APPROX_NONE`), exact answers of the solver,
transitions as `set_guard` and `set_reset` accept them. -/
structure Env.Base (E : Env K) : Prop where
  noApprox : E.approx = .none
  honest : E.S.Honest
  tol : 0 ≤ E.T.inter
  dynFor : ∀ (i : ℕ) (m : Mode K), E.ha.modes[i]? = some m → m.isError = false → (E.dyn i).For m
  rows : ∀ (i : ℕ) (m : Mode K) (a : Csr K), E.ha.modes[i]? = some m → m.a = some a → a.nrows = (E.dyn i).dims
  trs : ∀ (i : ℕ) (m : Mode K) (l : List ℕ) (ti : ℕ) (t : Tr K), E.ha.modes[i]? = some m →
    m.isError = false → E.ha.out[i]? = some l →
    ti ∈ l → E.ha.trans[ti]? = some t → TrOk (E.dyn i).dims t

/-- Further: in no mode inputs together with an invariant (C42). -/
structure Env.Sound (E : Env K) : Prop extends E.Base where
  plain : ∀ (i : ℕ) (m : Mode K), E.ha.modes[i]? = some m → m.isError = false → m.Plain

/-- No transition is treated as time-triggered. -/
def Env.NoTt (E : Env K) : Prop := ∀ t ∈ E.ha.trans, E.set.tt = true → t.tt = false

/-- What makes stopping after a time-triggered transition with guard `g` harmless (cf. C44): along the
flow, the value of a guard row opposite to an invariant condition falls by at least `2 ε`, up to any later
state in which transitions may be taken; and such a state is inside the invariant. -/
def TtFalls (eps : K) (R : (ℕ → K) → Prop) (m : Mode K) (d : Dyn K) (g : Csr K × List K) : Prop :=
  ∀ a, m.a = some a → ∀ p ∈ g.1.rows.zip g.2, ∀ lc ∈ m.inv, rowOnly (getTtVars a) p.1 = true →
    |lc.rhs + p.2| < eps → (∀ j < g.1.ncols, coefAt lc.row j = -coefAt p.1 j) →
    ∀ (k : ℕ) (x z : ℕ → K), Flow 0 m d (k + 1) x z → R z →
      InvEps 0 m z ∧ dot p.1 z ≤ dot p.1 x - 2 * eps

/-- Further, so that nothing is skipped: time-triggered transitions as in `TtFalls` (C44); modes treated
as having zero dynamics have them (C43). -/
structure Env.OkOn (E : Env K) (R : ℕ → (ℕ → K) → Prop) : Prop extends E.Sound where
  tt : E.set.tt = true → ∀ (i : ℕ) (m : Mode K) (l : List ℕ) (ti : ℕ) (t : Tr K) (g : Csr K × List K),
    E.ha.modes[i]? = some m → m.isError = false → E.ha.out[i]? = some l → ti ∈ l →
    E.ha.trans[ti]? = some t → t.tt = true → t.guard = some g →
    t.src = i ∧ g.1.ncols = (E.dyn i).dims ∧ TtFalls E.epsTt (R i) m (E.dyn i) g
  zero : E.set.skipZero = true → ∀ (i : ℕ) (m : Mode K) (a : Csr K), E.ha.modes[i]? = some m → m.a = some a →
    a.noEntries = true → m.inputs = none ∧
      ∀ r < (E.dyn i).dims, ∀ c < (E.dyn i).dims, ((E.dyn i).ex 1).e r c = if r = c then 1 else 0

/-- With transitions everywhere. -/
abbrev Env.Ok (E : Env K) : Prop := E.OkOn fun _ _ => True

/-- `Env.OkOn` in the proofs. -/
abbrev Env.OkJ [JumpAt K] (E : Env K) : Prop := E.OkOn JumpAt.at_

/-- A state set that has just been created: nothing has been done to its LP instance. -/
structure SS.Entry (E : Env K) (st : SS K) : Prop where
  zero : st.stepIn = 0
  obj : st.lp.ObjInv
  wf : st.lp.WF
  cur : st.lp.cur + st.lp.dims ≤ st.lp.numCols
  ok : ∀ m, E.ha.modes[st.mode]? = some m → m.isError = false →
    st.lp.dims = (E.dyn st.mode).dims ∧
    st.Ok m (E.dyn st.mode) st.lp.Mem E.T.inter True 0

theorem Repr.entry_ok {E : Env K} (hE : E.Base) {m : Mode K} {i n : ℕ} {lp : Lp K} {X : (ℕ → K) → Prop}
    {steps : ℕ × ℕ} {ol : List ℕ} {con : Bool} {st : SS K} (hm : E.ha.modes[i]? = some m)
    (hr : lp.Repr (Rep.ofSet n X)) (ho : lp.ObjInv)
    (h : SS.make E.T m i lp steps ol con = .ok st) :
    st.Entry E ∧ st.mode = i ∧ st.lp = lp ∧ st.steps = steps ∧ st.concrete = con := by
  cases ha : m.a with
  | none =>
    unfold SS.make at h
    rw [ha] at h
    cases h
    refine ⟨⟨rfl, ho, hr.wf, hr.curLe, fun m' hm' he => ?_⟩, rfl, rfl, rfl, rfl⟩
    simp only at hm'
    rw [hm] at hm'; cases hm'
    simp [Mode.isError, ha] at he
  | some a =>
    have had := hE.rows i m a hm ha
    have he : m.isError = false := by simp [Mode.isError, ha]
    have hn : n = (E.dyn i).dims := by
      have h' := h
      unfold SS.make at h'
      rw [ha] at h'
      simp only [bind_ok, need_ok] at h'
      obtain ⟨bm, hb, _, ⟨h1, -⟩, -⟩ := h'
      unfold getBasisMatrix Sys.getDense at hb
      split at hb
      swap
      · cases hb
      cases hb
      have : lp.dims = n := hr.n
      simp only at h1
      omega
    subst hn
    obtain ⟨h1, h2⟩ := SS.Ok.make (hE.dynFor i m hm he) ha hr ho had (ε := E.T.inter) h
    have hlp : st.lp = lp := by rw [h1]
    have hmode : st.mode = i := by rw [h1]
    refine ⟨⟨by rw [h1], by rw [hlp]; exact ho, by rw [hlp]; exact hr.wf, by rw [hlp]; exact hr.curLe,
      fun m' hm' _ => ?_⟩, hmode, hlp, by rw [h1], by rw [h1]⟩
    rw [hmode] at hm' ⊢
    rw [hm] at hm'; cases hm'
    rw [hlp]
    exact ⟨hr.n, h2⟩

theorem boxCenterLoop_keeps {S : Solver K} : ∀ (fuel : ℕ) {lp lp' : Lp K} {dim : ℕ}
    {r : Option (List K)}, boxCenterLoop S lp fuel dim = .ok (lp', r) →
    lp'.toSys = lp.toSys ∧ (lp.ObjInv → lp'.ObjInv)
  | 0, lp, lp', dim, r, h => by cases h; exact ⟨rfl, id⟩
  | fuel + 1, lp, lp', dim, r, h => by
    simp only [boxCenterLoop, bind_ok] at h
    obtain ⟨⟨lp1, r1⟩, h1, ⟨lp2, r2⟩, h2, h⟩ := h
    have k1 := minimize_keeps h1
    have k2 := minimize_keeps h2
    simp only at h k2
    split at h
    · simp only [bind_ok, pure_ok, Prod.mk.injEq] at h
      obtain ⟨⟨lp3, r3⟩, h3, rfl, -⟩ := h
      have k3 := boxCenterLoop_keeps fuel h3
      exact ⟨k3.1.trans (k2.1.trans k1.1), fun ho => k3.2 (k2.2 (k1.2 ho))⟩
    · simp only [pure_ok, Prod.mk.injEq] at h
      obtain ⟨rfl, -⟩ := h
      exact ⟨k2.1.trans k1.1, fun ho => k2.2 (k1.2 ho)⟩

/-- `pretransition` only optimises; it fails only on empty sets. -/
theorem pretransition_spec {E : Env K} (hE : E.Base) {lp lp' : Lp K} {r : Option (Option (List K))}
    (ho : lp.ObjInv) (hc : lp.cur + lp.dims ≤ lp.numCols)
    (h : pretransition E lp = .ok (lp', r)) :
    lp'.toSys = lp.toSys ∧ lp'.ObjInv ∧ (r = none → ∀ x, ¬ lp.Mem x) := by
  unfold pretransition at h
  split at h
  · simp only [bind_ok, pure_ok, Prod.mk.injEq] at h
    obtain ⟨⟨lp1, r1⟩, h1, rfl, rfl⟩ := h
    obtain ⟨k1, k2⟩ := boxCenterLoop_keeps _ h1
    refine ⟨k1, k2 ho, fun hr x hx => ?_⟩
    obtain ⟨v, hv, -⟩ := hx
    have hr' : r1 = none := by simpa using hr
    exact (boxCenterLoop_spec hE.honest hc (by omega) rfl ho h1).1 hr' v hv
  · cases h; exact ⟨rfl, ho, by simp⟩

theorem post_iff {n : ℕ} {t : Tr K} {ρ : Rep K} (hn : ρ.n = n) {g : Csr K × List K}
    (hg : t.guard = some g) (y : ℕ → K) :
    (∃ z, ρ.Post g.1 g.2 (t.reset.getD (Csr.id ρ.n)) (minkArgs t.mink t.minkC t.minkRhs).m
      (minkArgs t.mink t.minkC t.minkRhs).c (minkArgs t.mink t.minkC t.minkRhs).rhs z ∧
      EqOn (t.reset.getD (Csr.id ρ.n)).nrows y z) ↔
    ∃ x, ρ.Mem x ∧ GuardHolds t x ∧ ResetTo n t x y := by
  subst hn
  have hid : ∀ i < ρ.n, ∀ x : ℕ → K, dot ((Csr.id (K := K) ρ.n).row i) x = x i := by
    intro i hi x
    have hl : (Csr.id (K := K) ρ.n).rows.length = ρ.n := by simp [Csr.id]
    rw [Csr.row_lt (by rw [hl]; exact hi)]; simp [Csr.id]
  have hlen : (Csr.id (K := K) ρ.n).nrows = ρ.n := by simp [Csr.id, Csr.nrows]
  have key : ∀ x w, (∀ i < (t.reset.getD (Csr.id ρ.n)).nrows,
        y i = dot ((t.reset.getD (Csr.id ρ.n)).row i) x +
          dot ((minkArgs t.mink t.minkC t.minkRhs).m.row i) w) ↔
      ∀ i < (match t.reset with | none => ρ.n | some R => R.nrows),
      y i = (match t.reset with | none => x i | some R => dot (R.row i) x) +
        (match t.mink with | none => 0 | some M => dot (M.row i) w) := by
    intro x w
    have hm : ∀ i, dot ((minkArgs t.mink t.minkC t.minkRhs).m.row i) w =
        (match t.mink with | none => 0 | some M => dot (M.row i) w) := by
      intro i
      cases t.mink with
      | none => simp [minkArgs, Csr.row]
      | some M => rfl
    simp only [hm]
    cases t.reset with
    | none =>
      simp only [Option.getD_none, hlen]
      refine forall_congr' fun i => imp_congr_right fun hi => ?_
      rw [hid i hi]
    | some R => rfl
  have hc : ∀ w, (minkArgs t.mink t.minkC t.minkRhs).c.le w
      (minkArgs t.mink t.minkC t.minkRhs).rhs ↔
      ∀ M, t.mink = some M → (t.minkC.getD ⟨0, []⟩).le w (t.minkRhs.getD []) := by
    intro w
    cases t.mink with
    | none =>
      simp only [minkArgs]
      exact ⟨fun _ M h => (by cases h), fun _ i hi => absurd hi (by simp)⟩
    | some M =>
      simp only [minkArgs]
      exact ⟨fun h _ _ => h, fun h => h M rfl⟩
  unfold Rep.Post
  constructor
  · rintro ⟨z, ⟨x, w, h1, h2, h3, h4⟩, h5⟩
    exact ⟨x, h1, ⟨g, hg, h2⟩, w, (hc w).1 h3, (key x w).1 fun i hi => by rw [h5 i hi, h4 i hi]⟩
  · rintro ⟨x, h1, ⟨g', hg', h2⟩, w, h3, h4⟩
    rw [hg] at hg'; cases hg'
    exact ⟨y, ⟨x, w, h1, h2, (hc w).2 h3, (key x w).2 h4⟩, fun _ _ => rfl⟩

theorem ofSet_mem {n : ℕ} {X : (ℕ → K) → Prop} (y : ℕ → K) :
    (Rep.ofSet n X).Mem y ↔ ∃ z, X z ∧ EqOn n y z := by
  unfold Rep.Mem Rep.val
  constructor
  · rintro ⟨w, u, ⟨z, hz, hwz⟩, h⟩
    refine ⟨z, hz, fun i hi => ?_⟩
    rw [h i hi, ← hwz i hi]
    simp only [Rep.ofSet, ite_mul, one_mul, zero_mul]
    rw [Finset.sum_ite_eq]
    simp [hi, inSum]
  · rintro ⟨z, hz, h⟩
    refine ⟨z, fun _ _ => 0, ⟨z, hz, fun _ _ => rfl⟩, fun i hi => ?_⟩
    rw [h i hi]
    simp only [Rep.ofSet, ite_mul, one_mul, zero_mul]
    rw [Finset.sum_ite_eq]
    have : i < n := hi
    simp [this, inSum]

/-- **`make_op_transition`**: always succeeds on a nonempty intersection; the new state set is the
image of the intersection under the reset. -/
theorem makeOp_spec {E : Env K} (hE : E.Base) {i : ℕ} {m : Mode K} (hm : E.ha.modes[i]? = some m)
    (he : m.isError = false) {lp lp' : Lp K} {ρ : Rep K} (hr : lp.Repr ρ)
    (hn : ρ.n = (E.dyn i).dims) (ho : lp.ObjInv) {ti : ℕ} {t : Tr K} {l : List ℕ}
    (hl : E.ha.out[i]? = some l) (hti : ti ∈ l) (ht : E.ha.trans[ti]? = some t)
    {g : Csr K × List K} (hg : t.guard = some g) {tlp : Lp K}
    (hgi : guardIntersection E.S lp g = .ok (lp', some tlp)) {σ σ' : Core K} {r : Option ℕ}
    {st : SS K} {nid : ℕ} (h : makeOp E σ ti t tlp st nid = .ok (σ', r)) :
    ∃ post c, r = some σ.ops.length ∧
      σ' = { σ with ops := σ.ops ++ [{ step := st.stepIn, parent := some nid, child := none,
                                       trans := some ti, post := σ.states.length, center := c }],
                    states := σ.states ++ [post] } ∧
      post.mode = t.dst ∧ post.steps = st.steps ∧ post.concrete = st.concrete ∧ post.Entry E ∧
      (∀ y, post.lp.Mem y ↔ ∃ x, lp.Mem x ∧ GuardHolds t x ∧ ResetTo (E.dyn i).dims t x y) ∧
      (lp.NoLo → post.lp.NoLo) := by
  have htr := hE.trs i m l ti t hm he hl hti ht
  obtain ⟨hgo, hgn⟩ := htr.guard g hg
  obtain ⟨g1, g2, -, g4⟩ := guardIntersection_spec hE.honest ho hr.wf hgo hgi
  obtain ⟨c, hc, c1, c2, ⟨x0, hx0⟩, -, c3⟩ := g4 tlp rfl
  have hrc : c.Repr ρ := by
    have := clone_ok hc
    rw [this, g1]
    obtain ⟨X, R, hsh, -⟩ := hr.shape
    have e : ({ lp.toSys with bmIdx := mkBmIdx lp.dims lp.bmPos.2 lp.cur lp.ie } : Sys K) = lp.toSys := by
      have := hsh.idx
      cases hq : lp.toSys
      simp_all
    have e2 : lp'.dims = lp.dims ∧ lp'.bmPos = lp.bmPos ∧ lp'.cur = lp.cur ∧ lp'.ie = lp.ie := by
      rw [g1]; exact ⟨rfl, rfl, rfl, rfl⟩
    simp only [e2]
    rw [e]; exact hr
  obtain ⟨hwf1, hsv, hnm, -, -⟩ := addCurtimeConstraints_ok c2 hgo.len hgo.wf hrc.wf
  have hcur : tlp.cur + tlp.dims ≤ tlp.numCols := by
    rw [hsv.cur, hsv.dims]; unfold Sys.numCols; rw [hnm]; exact hrc.curLe
  simp only [makeOp, bind_ok] at h
  obtain ⟨⟨lp1, r1⟩, h1, h⟩ := h
  obtain ⟨p1, p2, p3⟩ := pretransition_spec hE c1 hcur h1
  cases r1 with
  | none => exact absurd hx0 (p3 rfl x0)
  | some cen =>
    simp only [bind_ok, needSome_ok, need_ok, pure_ok, Prod.mk.injEq] at h
    obtain ⟨dst, hdst, s, hs, ⟨lp2, f⟩, hf, _, hft, post, hpost, hσ, hr'⟩ := h
    rw [p1] at hs
    have htrans := trans_repr hrc c2 hgo.len hgo.wf (by rw [hn]; exact hgn) hs htr.resetNe
      (by rw [hn]; exact (hE.dynFor i m hm he).pos) htr.resetWF htr.minkWF htr.minkCWF htr.minkDims
    obtain ⟨f1, f2, -⟩ := isFeasible_spec hE.honest hf (by exact p2)
    have hrep : lp2.Repr (Rep.ofSet (t.reset.getD (Csr.id ρ.n)).nrows
        (ρ.Post g.1 g.2 (t.reset.getD (Csr.id ρ.n))
      (minkArgs t.mink t.minkC t.minkRhs).m (minkArgs t.mink t.minkC t.minkRhs).c
      (minkArgs t.mink t.minkC t.minkRhs).rhs)) := by rw [f1]; exact htrans
    obtain ⟨q1, q2, q3, q4, q5⟩ := Repr.entry_ok hE hdst hrep f2 hpost
    refine ⟨post, cen, hr'.symm, hσ.symm, q2, q4, q5, q1, fun y => ?_, fun hlo => ?_⟩
    · rw [q3, hrep.mem, ofSet_mem, post_iff hn hg]
      simp only [hr.mem]
    · rw [q3, f1]
      have n1 : lp'.NoLo := by rw [g1]; exact hlo
      exact addReset_noLo (addCurtime_noLo (clone_noLo n1 hc) c2) hs

/-! ### Aggregation -/

/-- Only objectives and solver state of the LP instances differ. -/
def Touched (ss ss' : List (SS K)) : Prop :=
  ss'.length = ss.length ∧ ∀ (i : ℕ) st, ss[i]? = some st →
    ∃ lp', ss'[i]? = some { st with lp := lp' } ∧ lp'.toSys = st.lp.toSys ∧
      (st.lp.ObjInv → lp'.ObjInv)

theorem Touched.refl (ss : List (SS K)) : Touched ss ss :=
  ⟨rfl, fun _ st h => ⟨st.lp, h, rfl, id⟩⟩

theorem aggDirs_obj {S : Solver K} (hS : S.Honest) {tol2 : K} : ∀ (dirs : List (List K))
    {lps lps' : List (Lp K)} {rows : List (SRow K × K)},
    (∀ l ∈ lps, l.ObjInv ∧ l.cur + l.dims ≤ l.numCols) →
    aggDirs S tol2 dirs lps = .ok (lps', rows) → ∀ l ∈ lps', l.ObjInv
  | [], lps, lps', rows, hin, h => by cases h; exact fun l hl => (hin l hl).1
  | d :: ds, lps, lps', rows, hin, h => by
    simp only [aggDirs] at h
    split at h
    · exact aggDirs_obj hS ds hin h
    · simp only [bind_ok, needSome_ok, pure_ok, Prod.mk.injEq] at h
      obtain ⟨⟨lps1, acc⟩, h1, ⟨hi, lo⟩, -, ⟨lps2, rows2⟩, h2, rfl, -⟩ := h
      obtain ⟨-, a1, a2, -⟩ := aggDirLoop_spec hS hin h1
      exact aggDirs_obj hS ds (objInv_cur_of_toSys a1 hin a2) h2

/-- `aggregate`, as used by the computation. -/
theorem aggregate_spec {S : Solver K} (hS : S.Honest) {tol2 : K} {lps lps' : List (Lp K)}
    {dirs : List (List K)} {dims : ℕ} {mode : Mode K} {rv : Lp K}
    (hin : ∀ l ∈ lps, l.ObjInv ∧ l.cur + l.dims ≤ l.numCols)
    (hdirs : ∀ d ∈ dirs, d.length = dims)
    (h : aggregate S tol2 lps dirs dims mode = .ok (lps', rv)) :
    (∃ X, rv.Repr (Rep.ofSet dims X)) ∧ rv.ObjInv ∧ rv.NoLo ∧
    (∀ l ∈ lps, ∀ x, l.Mem x → rv.Mem x) ∧
    lps'.map (fun l => l.toSys) = lps.map (fun l => l.toSys) ∧ ∀ l ∈ lps', l.ObjInv := by
  simp only [aggregate, bind_ok, assert_ok, pure_ok] at h
  obtain ⟨_, hd1, _, hd2, ⟨lps1, rows⟩, h1, rv1, h2, h3⟩ := h
  obtain ⟨rfl, rfl⟩ := Prod.mk.inj h3
  obtain ⟨a1, a2, -, a3⟩ := aggDirs_spec hS hin h1
  have hwf : (⟨dims, rows.map fun r => r.1⟩ : Csr K).WF := by
    intro r hr p hp
    obtain ⟨q, hq, rfl⟩ := List.mem_map.1 hr
    obtain ⟨d, hd, h⟩ := a2 q hq
    have := h p hp
    rwa [hdirs d hd] at this
  have hrep := fromConstraints_repr h2 (by simp) hwf
  refine ⟨⟨_, hrep⟩, ?_, fromConstraints_noLo h2, ?_, a1, aggDirs_obj hS _ hin h1⟩
  · obtain ⟨-, -, -, -, -, -, -, -, -, -, -, ho, -⟩ := fromConstraints_ok h2 (by simp)
    intro j hj; rw [ho] at hj; exact absurd rfl hj
  · intro l hl x hx
    rw [fromConstraints_mem h2 (by simp) hwf]
    refine ⟨x, ?_, fun _ _ => rfl⟩
    rw [satTypes_up, le_iff_zip (by simp)]
    have := (a3 x).2 fun d _ _ => ⟨⟨x, ⟨l, hl, hx⟩, le_refl _⟩, ⟨x, ⟨l, hl, hx⟩, le_refl _⟩⟩
    simp only
    rw [List.zip_map']
    simpa using this

/-- `aggregate_chull`, as used by the computation. -/
theorem chull_spec {S : Solver K} {M : K} {n : ℕ} {lps : List (Lp K)} {mode : Mode K} {rv : Lp K}
    (hin : ∀ l ∈ lps, HullArg n l.toSys) (hlen : 2 ≤ lps.length)
    (h : aggregateChull S M lps mode = .ok rv) :
    (∃ X, rv.Repr (Rep.ofSet n X)) ∧ rv.ObjInv ∧ rv.NoLo ∧ ∀ l ∈ lps, ∀ x, l.Mem x → rv.Mem x := by
  obtain ⟨hres, -⟩ := chull_res lps.length le_rfl hin h
  have hsnap : ∃ s, s.NoLo ∧ s.WF ∧ snapshot S M s mode = .ok rv := by
    match lps, hlen, hin, h with
    | [], hlen, _, h => simp at hlen
    | [_], hlen, _, h => simp at hlen
    | [l1, l2], _, hin, h =>
      rw [aggregateChull] at h
      simp only [bind_ok] at h
      obtain ⟨c1, h1, c2, h2, s, h3, h4⟩ := h
      obtain ⟨a1, -⟩ := cloneComplete_ok (hin l1 (by simp)) h1
      obtain ⟨b1, -⟩ := cloneComplete_ok (hin l2 (by simp)) h2
      obtain ⟨k1, k2, -⟩ := chullTwo_ok a1 b1 h3
      exact ⟨s, k1, k2, h4⟩
    | l1 :: l2 :: l3 :: rest, hlen, hin, h =>
      have h' := h
      rw [aggregateChull] at h
      simp only [bind_ok] at h
      obtain ⟨cs, hcs, h⟩ := h
      have hf := mapM_forall₂ cloneComplete _ cs hcs
      rw [List.attach_map_subtype_val] at hf
      split at h
      swap
      · cases h
      rename_i hl
      simp only [bind_ok] at h
      obtain ⟨a, ha, b, hb, r, hr, h⟩ := h
      have harg : ∀ c ∈ cs, HullArg n c.toSys := by
        intro c hc
        obtain ⟨i, hi, rfl⟩ := List.getElem_of_mem hc
        have hi' : i < (l1 :: l2 :: l3 :: rest).length := by rw [← hl]; exact hi
        exact (cloneComplete_ok (hin _ (List.getElem_mem hi')) (hf.get hi' hi)).1
      obtain ⟨ra, -⟩ := chull_res (lps := cs.take (cs.length / 2)) _ le_rfl
        (fun l hl => harg l (List.mem_of_mem_take hl)) ha
      obtain ⟨rb, -⟩ := chull_res (lps := cs.drop (cs.length / 2)) _ le_rfl
        (fun l hl => harg l (List.mem_of_mem_drop hl)) hb
      obtain ⟨rr, -⟩ := chull_res (lps := [a, b]) (n := n) _ le_rfl (by
        intro l hl
        simp only [List.mem_cons, List.not_mem_nil, or_false] at hl
        rcases hl with rfl | rfl
        · exact ra.arg
        · exact rb.arg) hr
      exact ⟨r.toSys, rr.arg.noLo, rr.arg.wf, h⟩
  obtain ⟨s, s1, s2, s3⟩ := hsnap
  have s3' := s3
  unfold snapshot at s3
  have hnames : ∀ ns, some s.names = some ns → ns.length = s.getFull.ncols := by
    rintro ns ⟨⟩; rfl
  have hw : s.getFull.WF := by
    intro r hr p hp
    obtain ⟨q, hq, rfl⟩ := List.mem_map.1 hr
    exact s2 q hq p hp
  have hrep := fromConstraints_repr s3 hnames hw
  have hd : s.dims = n := by
    have := hrep.n
    simp only [Rep.ofSet, Option.getD_some] at this
    rw [← this]; exact hres.arg.dims
  refine ⟨⟨_, by rw [Option.getD_some, hd] at hrep; exact hrep⟩, ?_, hres.arg.noLo, hres.sup⟩
  obtain ⟨-, -, -, -, -, -, -, -, -, -, -, ho, -⟩ := fromConstraints_ok s3 hnames
  intro j hj; rw [ho] at hj; exact absurd rfl hj

end Hylaa
