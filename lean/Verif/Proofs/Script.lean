import Verif.Proofs.Prepared
import Verif.Proofs.Conc2

/-! # The analysis of what a script builds -/

set_option linter.unusedSectionVars false

namespace Hylaa
open Spec
variable {K : Type} [Field K] [LinearOrder K] [IsStrictOrderedRing K]

/-- The automaton as the user wrote it, with the discrete-time dynamics the analysis uses. -/
def Env.user (E : Env K) (ha : HA K) : Hyb K := ⟨ha, E.dyn, E.set.urgent, E.set.numSteps, fun _ _ => True⟩

/-- `d` is the discrete-time dynamics of mode `m` with matrix `a`: matrix powers, an input matrix if there
are inputs. -/
structure Dyn.Of (d : Dyn K) (m : Mode K) (a : Csr K) : Prop where
  laws : d.Laws
  dims : d.dims = a.nrows
  inp : ∀ N, d.nmat = some N → ∃ inp, m.inputs = some inp ∧ inp.b.ncols = N.nc
  noInp : d.nmat = none → m.inputs = none

/-- `E` is the environment of an analysis of the automaton built by the script `ops` (`tolIn`: `1e-9` of
`_check_inputs`, `str`: `do_guard_strengthening`, `tolStr`: `1e-13`); its solver is exact, and its dynamics are
those of the modes. -/
structure Env.Of (E : Env K) (ops : List (BuildOp K)) (str : Bool) (tolIn tolStr : K) : Prop where
  noApprox : E.approx = .none
  script : ScriptOk ops
  honest : E.S.Honest
  tol : 0 ≤ E.T.inter
  eps : 0 ≤ E.epsTt
  prepared : (HA.build E.S tolIn ops).setupHa E.set.tt str E.epsTt tolStr = .ok E.ha
  dyn : ∀ (i : ℕ) (m : Mode K) (a : Csr K), E.ha.modes[i]? = some m → m.a = some a → (E.dyn i).Of m a

theorem invEps_zero (m : Mode K) (x : ℕ → K) : InvEps 0 m x ↔ InvHolds m x := by
  simp [InvEps, InvHolds]

section
variable {E : Env K} {ops : List (BuildOp K)} {str : Bool} {tolIn tolStr : K}

theorem Env.Of.spec (h : E.Of ops str tolIn tolStr) : BuiltOk (HA.build E.S tolIn ops) ∧
    Prepared (HA.build E.S tolIn ops) E.ha ∧ (∀ t ∈ E.ha.trans, TransOk E.ha.modes t) ∧
      E.ha.checkTransitions = .ok () := by
  have hb := (build_ok (tol := tolIn) h.honest ops h.script).1
  exact ⟨hb, setupHa_spec h.eps hb h.prepared⟩

theorem Env.Of.mode (h : E.Of ops str tolIn tolStr) {i : ℕ} {m : Mode K} (hm : E.ha.modes[i]? = some m) :
    ModeOk m := by
  obtain ⟨hb, hp, -, -⟩ := h.spec
  rw [hp.modes] at hm
  exact hb.modes m (List.mem_of_getElem? hm)

theorem Env.Of.base (h : E.Of ops str tolIn tolStr) : E.Base := by
  obtain ⟨hb, hp, ht, hc⟩ := h.spec
  refine ⟨h.noApprox, h.honest, h.tol, fun i m hm he => ?_, fun i m a hm ha => (h.dyn i m a hm ha).dims.symm,
    fun i m l ti t hm he hl hti htt => ?_⟩
  · obtain ⟨a, ha⟩ : ∃ a, m.a = some a := by
      cases hma : m.a with
      | none => simp [Mode.isError, hma] at he
      | some a => exact ⟨a, rfl⟩
    obtain ⟨d1, d2, d3, d4⟩ := (h.mode hm).dyn a ha
    have hd := h.dyn i m a hm ha
    exact ⟨hd.laws, by rw [hd.dims]; exact d4, by rw [hd.dims]; exact d3, hd.inp, hd.noInp⟩
  · have hto := ht t (List.mem_of_getElem? htt)
    refine ⟨fun g hg => ?_, fun hr => ?_, fun r hr => (hto.resetNe r hr).2, hto.minkWF, hto.minkCWF,
      hto.minkDims⟩
    · obtain ⟨go, m', a', g1, g2, g3⟩ := hto.guard g hg
      refine ⟨go, ?_⟩
      have hsrc : t.src = i := by
        rw [hp.out] at hl
        obtain ⟨j, hj⟩ := List.mem_iff_getElem?.1 hti
        obtain ⟨t0, q1, q2, -⟩ := hb.cons.only i l j ti hl hj
        rw [(hp.trans ti t0 t q1 htt).src]
        exact q2
      rw [hsrc] at g1
      have : m' = m := Option.some.inj (g1.symm.trans hm)
      subst this
      rw [g3, (h.dyn i m' a' hm g2).dims]
    · obtain ⟨r, hr⟩ := Option.isSome_iff_exists.1 hr
      rw [hr]
      exact (hto.resetNe r hr).1

theorem Env.Of.minkOk (h : E.Of ops str tolIn tolStr) : MinkOk E := fun t ht => (h.spec.2.2.1 t ht).minkNe

/-- An entered mode can only be left, or entered at the beginning, inside its invariant. -/
theorem Spec.Hyb.Jump.inv {H : Hyb K} {ε : K} {i : ℕ} {x : ℕ → K} {k ti j : ℕ} {y : ℕ → K}
    (h : H.Jump ε i x k ti j y) {m : Mode K} (hm : H.ha.modes[i]? = some m) (hw : m.InvWF (H.dyn i).dims) :
    InvEps ε m x := by
  obtain ⟨m', t, z, l, h1, h2, h3, h4, -⟩ := h
  rw [hm] at h1
  cases h1
  have hgen : ∀ {k : ℕ} {x z : ℕ → K}, Flow ε m (H.dyn i) k x z → InvEps ε m z ∨ 0 < k → InvEps ε m x := by
    intro k x z hf
    clear h3 h4
    induction hf with
    | zero he =>
      rintro (h | h)
      · exact (InvEps.congr hw he).1 h
      · exact absurd h (lt_irrefl 0)
    | step hf hi _ ih => exact fun _ => ih (.inl hi)
  refine hgen h3 ?_
  rcases Nat.eq_zero_or_pos k with rfl | hk
  · exact .inl (h4 rfl).2
  · exact .inr hk

/-- A run of the automaton as written is a run of the prepared one, if it ends inside the invariant. -/
theorem Env.Of.reach (h : E.Of ops str tolIn tolStr) {X0 : ℕ → (ℕ → K) → Prop} {i : ℕ} {x : ℕ → K} {n : ℕ}
    (hr : (E.user (HA.build E.S tolIn ops)).Reach 0 X0 i x n) :
    ∀ m, E.ha.modes[i]? = some m → InvHolds m x → E.hyb.Reach 0 X0 i x n := by
  obtain ⟨hb, hp, ht, hc⟩ := h.spec
  induction hr with
  | init h0 hm hi => exact fun m' hm' _ => .init h0 (by show E.ha.modes[_]? = _; rw [hp.modes]; exact hm) hi
  | @jump i x n k ti j y hr hj hn ih =>
    intro m' hm' hinv
    have hj' := hj
    obtain ⟨m, t, z, l, h1, h2, h3, h4, h5, h6, h7, h8, h9, rfl, -⟩ := hj
    have hm : E.ha.modes[i]? = some m := by rw [hp.modes]; exact h1
    obtain ⟨a, ha⟩ : ∃ a, m.a = some a := by
      cases hma : m.a with
      | none => simp [Mode.isError, hma] at h2
      | some a => exact ⟨a, rfl⟩
    have hdo := h.dyn i m a hm ha
    have hiw : m.InvWF (E.dyn i).dims := by
      rw [hdo.dims]; exact ((h.mode hm).dyn a ha).2.2.2
    have hx : InvHolds m x := (invEps_zero m x).1 (hj'.inv h1 hiw)
    refine .jump (ti := ti) (ih m hm hx) ?_ hn
    have hlt : ti < E.ha.trans.length := by rw [hp.len]; exact lt_of_getElem? h7
    have ht' := List.getElem?_eq_getElem hlt
    have hpt := hp.trans ti t _ h7 ht'
    have hd := hpt.dst
    refine ⟨m, _, z, l, hm, h2, h3, h4, by show E.ha.out[_]? = _; rw [hp.out]; exact h5, h6, ht', hpt.more z h8 ?_,
      (hpt.resetTo _ z y).2 h9, hd.symm, trivial⟩
    intro hrn mt hmt
    have hmt' : mt = m' := by
      rw [← hp.modes] at hmt
      exact Option.some.inj (hmt.symm.trans hm')
    subst hmt'
    cases hma : mt.a with
    | none =>
      have := ((h.mode hm').none_ hma).1
      intro lc hlc
      rw [this] at hlc; simp at hlc
    | some b =>
      obtain ⟨src, dst, a', c1, c2, c3, -, c5⟩ := checkTransitions_spec hc _ (List.getElem_mem hlt)
      have hsrc : t.src = i := by
        obtain ⟨j, hj⟩ := List.mem_iff_getElem?.1 h6
        obtain ⟨t0, q1, q2, -⟩ := hb.cons.only i l j ti h5 hj
        have : t0 = t := Option.some.inj (q1.symm.trans h7)
        rw [← this]; exact q2
      rw [hpt.src, hsrc] at c1
      rw [hd] at c2
      have e1 : src = m := Option.some.inj (c1.symm.trans hm)
      have e2 : dst = mt := Option.some.inj (c2.symm.trans hm')
      subst e1 e2
      have e3 : a' = a := Option.some.inj (c3.symm.trans ha)
      subst e3
      have hnr : b.nrows = a'.nrows := c5 b hma (by rw [hpt.reset]; exact hrn)
      have hmk := (hb.trans t (List.mem_of_getElem? h7)).noReset hrn
      obtain ⟨w, -, hy⟩ := h9
      rw [hrn, hmk] at hy
      simp only [add_zero] at hy
      have hzy : ∀ i < b.nrows, z i = y i := by
        intro r hr'
        refine (hy r ?_).symm
        show r < (E.dyn i).dims
        rw [hdo.dims, ← hnr]; exact hr'
      have hbw := ((h.mode hm').dyn b hma).2.2.2
      rw [← invEps_zero] at hinv ⊢
      exact (InvEps.congr hbw hzy).2 hinv

/-- If the prepared automaton is safe, so is the one the user wrote. -/
theorem Env.Of.safe (h : E.Of ops str tolIn tolStr) {X0 : ℕ → (ℕ → K) → Prop} (hs : E.hyb.Safe X0) :
    (E.user (HA.build E.S tolIn ops)).Safe X0 := by
  intro i x n m hr hm
  have hm' : E.ha.modes[i]? = some m := by rw [h.spec.2.1.modes]; exact hm
  by_contra hne
  have hma : m.a = none := by
    cases hma : m.a with
    | none => rfl
    | some a => simp [Mode.isError, hma] at hne
  have hinv : InvHolds m x := by
    intro lc hlc
    rw [((h.mode hm').none_ hma).1] at hlc; simp at hlc
  exact hne (hs i x n m (h.reach hr m hm' hinv) hm')

/-- Without time-triggered transitions, a run of the prepared automaton is one of the automaton as written. -/
theorem Env.Of.reach_user (h : E.Of ops str tolIn tolStr) (hnt : ∀ t ∈ E.ha.trans, t.tt = false) {ε : K}
    {X0 : ℕ → (ℕ → K) → Prop} {i : ℕ} {x : ℕ → K} {n : ℕ} (hr : E.hyb.Reach ε X0 i x n) :
    (E.user (HA.build E.S tolIn ops)).Reach ε X0 i x n := by
  obtain ⟨hb, hp, ht, hc⟩ := h.spec
  induction hr with
  | init h0 hm hi => exact .init h0 (by show (HA.build E.S tolIn ops).modes[_]? = _; rw [← hp.modes]; exact hm) hi
  | @jump i x n k ti j y hr hj hn ih =>
    refine .jump (ti := ti) ih ?_ hn
    obtain ⟨m, t, z, l, h1, h2, h3, h4, h5, h6, h7, h8, h9, rfl, -⟩ := hj
    have h7 : E.ha.trans[ti]? = some t := h7
    have hlt : ti < (HA.build E.S tolIn ops).trans.length := by rw [← hp.len]; exact lt_of_getElem? h7
    have ht' := List.getElem?_eq_getElem hlt
    have hpt := hp.trans ti _ t ht' h7
    exact ⟨m, _, z, l, by show (HA.build E.S tolIn ops).modes[_]? = _; rw [← hp.modes]; exact h1, h2, h3, h4,
      by show (HA.build E.S tolIn ops).out[_]? = _; rw [← hp.out]; exact h5, h6, ht',
      hpt.less (hnt t (List.mem_of_getElem? h7)) z h8, (hpt.resetTo _ z y).1 h9, hpt.dst, trivial⟩

end

end Hylaa
