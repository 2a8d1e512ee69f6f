import Verif.Proofs.CeInv
import Verif.Proofs.CeMode

/-! The invariant for C35 through the computation. -/

set_option linter.unusedSectionVars false

namespace Hylaa
open Spec
variable {K : Type} [Field K] [LinearOrder K] [IsStrictOrderedRing K]

structure WitInv (E : Env K) (P : Prop) (X0 : ℕ → (ℕ → K) → Prop) (σ : Core K) : Prop where
  heap : HeapWit σ
  mode : ModeInv E σ
  st : ∀ (sid : ℕ) st, σ.states[sid]? = some st → st.concrete = true → ∃ c, StWit E P X0 σ st c
  te : ∀ (i : ℕ) (m : Mode K) u, E.ha.modes[i]? = some m → m.isError = false → σ.te i = some u →
    u.Inv (E.dyn i)
  ce : σ.ce ≠ [] → IsTrace E.hyb E.T.inter P X0 σ.ce
  has : σ.hasConc = true → E.set.makeCe = true → σ.ce ≠ []
  nr : P → σ.queue = [] ∧ σ.rep = none

/-- Most operations change state sets only. -/
theorem WitInv.upd {E : Env K} {P : Prop} {X0 : ℕ → (ℕ → K) → Prop} {σ σ' : Core K}
    (h : WitInv E P X0 σ) (hm : Micros E σ σ') (hmode : ModeInv E σ')
    (hst : ∀ (sid : ℕ) st, σ'.states[sid]? = some st → st.concrete = true →
      σ.states[sid]? = some st ∨ ∃ c, StWit E P X0 σ' st c)
    (hte : σ'.te = σ.te) (hce : σ'.ce = σ.ce) (hh : σ'.hasConc = σ.hasConc)
    (hnr : P → σ'.queue = σ.queue ∧ σ'.rep = σ.rep) : WitInv E P X0 σ' := by
  refine ⟨hm.heapWit h.heap, hmode, fun sid st hs hc => ?_, by rw [hte]; exact h.te, by rw [hce]; exact h.ce,
    by rw [hce, hh]; exact h.has, fun hp => ?_⟩
  · rcases hst sid st hs hc with hs | hs
    · obtain ⟨c, hw⟩ := h.st sid st hs hc
      exact ⟨c, hw.keep hm.keep⟩
    · exact hs
  · rw [(hnr hp).1, (hnr hp).2]; exact h.nr hp

theorem WitInv.setState {E : Env K} {P : Prop} {X0 : ℕ → (ℕ → K) → Prop} {σ : Core K}
    (h : WitInv E P X0 σ) {sid : ℕ} {st st' : SS K} (hs : σ.states[sid]? = some st) (hl : st.Like st')
    (hw : st.concrete = true → ∃ c, StWit E P X0 σ st' c) : WitInv E P X0 (σ.setState sid st') := by
  have hm : Micros E σ (σ.setState sid st') := .single (.mild (.state hs hl))
  refine h.upd hm (h.mode.same hm.mkeep rfl rfl) (fun i s hi hc => ?_) rfl rfl rfl fun _ => ⟨rfl, rfl⟩
  have hi' : (σ.states.set sid st')[i]? = some s := hi
  by_cases hk : sid = i
  · subst hk
    rw [List.getElem?_set_self (lt_of_getElem? hs)] at hi'
    cases hi'
    obtain ⟨c, hc'⟩ := hw (by rw [← hl.2.1]; exact hc)
    exact .inr ⟨c, hc'.keep hm.keep⟩
  · rw [List.getElem?_set_ne hk] at hi'
    exact .inl hi'

theorem WitInv.push {E : Env K} {P : Prop} {X0 : ℕ → (ℕ → K) → Prop} {σ : Core K}
    (h : WitInv E P X0 σ) (ν : ℕ) (x : NOp) (hx : x.isTr = false) : WitInv E P X0 (σ.pushOp ν x) :=
  h.upd (.single (.mild (.push σ ν x hx))) (h.mode.push ν hx) (fun _ _ h _ => .inl h) rfl rfl rfl fun _ => ⟨rfl, rfl⟩

theorem WitInv.misc {E : Env K} {P : Prop} {X0 : ℕ → (ℕ → K) → Prop} {σ : Core K}
    (h : WitInv E P X0 σ) (cur : Option ℕ) (tookTt : Bool) :
    WitInv E P X0 { σ with cur := cur, tookTt := tookTt } :=
  h.upd (Milds.micros (all := true) (Milds.misc σ cur σ.queue σ.rep σ.te tookTt σ.hasAgg σ.hasConc))
    (h.mode.same (Micros.mkeep (E := E) (Milds.micros (all := true)
      (Milds.misc σ cur σ.queue σ.rep σ.te tookTt σ.hasAgg σ.hasConc))) rfl rfl)
    (fun _ _ h _ => .inl h) rfl rfl rfl fun _ => ⟨rfl, rfl⟩

/-- A transition of the mode of `st` whose guard is reached. -/
structure AtGuard (E : Env K) (P : Prop) (X0 : ℕ → (ℕ → K) → Prop) (σ : Core K) (st : SS K) (ti : ℕ)
    (t : Tr K) (g : Csr K × List K) (tlp : Lp K) : Prop where
  mode : ∃ m l, E.ha.modes[st.mode]? = some m ∧ m.isError = false ∧ E.ha.out[st.mode]? = some l ∧ ti ∈ l
  tr : E.ha.trans[ti]? = some t
  guard : t.guard = some g
  cut : IsCut E.S g st.lp tlp
  wit : st.concrete = true → ∃ c, StWit E P X0 σ st c ∧ (P → st.stepIn = 0 → E.set.urgent = true ∧ c = 1)

/-- The error is recorded. -/
theorem WitInv.err {E : Env K} (hE : E.Base) {P : Prop} (hP : P → E.Sound) {X0 : ℕ → (ℕ → K) → Prop}
    {σ : Core K} (h : WitInv E P X0 σ) {st : SS K} {ti : ℕ} {t : Tr K} {g : Csr K × List K} {tlp : Lp K}
    (hg : AtGuard E P X0 σ st ti t g tlp) {dst : Mode K} (hdst : E.ha.modes[t.dst]? = some dst)
    (hde : dst.isError = true) {ce : List (CeSeg K)} (hce : ceFor E σ dst st ti tlp = .ok ce) :
    WitInv E P X0 (σ.errorReached st.concrete ce) := by
  have hm : Micros E σ (σ.errorReached st.concrete ce) :=
    Milds.micros (all := true) (errorReached_mild _ _ _)
  have hk := hm.keep
  have hh := hm.heapWit h.heap
  unfold Core.errorReached at hh hk ⊢
  cases hcon : st.concrete with
  | false =>
    rw [hcon] at hh hk
    simp only [Bool.false_eq_true, if_false] at hh hk ⊢
    refine ⟨hh, h.mode.same ⟨fun _ _ h => h, fun _ nd h => ⟨nd, h, rfl, rfl⟩,
      fun _ op h => ⟨op, h, rfl, rfl, rfl⟩⟩ rfl rfl, fun sid s hs hc => ?_, h.te, h.ce, h.has, h.nr⟩
    obtain ⟨c, hw⟩ := h.st sid s hs hc
    exact ⟨c, hw.keep hk⟩
  | true =>
    rw [hcon] at hh hk
    simp only [if_true] at hh hk ⊢
    have key : (ce ≠ [] → IsTrace E.hyb E.T.inter P X0 ce) ∧ (E.set.makeCe = true → ce ≠ []) := by
      unfold ceFor at hce
      split at hce
      · obtain ⟨m, l, m1, m2, m3, m4⟩ := hg.mode
        obtain ⟨c, w1, w2⟩ := hg.wit hcon
        have := makeCe_trace hE hP h.heap w1 m1 m2 w2 m3 m4 hg.tr hg.guard hg.cut hdst hde hce
        refine ⟨fun _ => this, fun _ h0 => ?_⟩
        obtain ⟨-, s, _, _, _, hs, -⟩ := this
        rw [h0] at hs; cases hs
      · rename_i hnot
        cases hce
        refine ⟨h.ce, fun hmk => ?_⟩
        cases hhc : σ.hasConc with
        | true => exact h.has hhc hmk
        | false =>
          intro h0
          apply hnot
          simp [hde, hcon, hhc, hmk, h0]
    refine ⟨hh, h.mode.same ⟨fun _ _ h => h, fun _ nd h => ⟨nd, h, rfl, rfl⟩,
      fun _ op h => ⟨op, h, rfl, rfl, rfl⟩⟩ rfl rfl, fun sid s hs hc => ?_, h.te, key.1, fun _ => key.2, h.nr⟩
    obtain ⟨c, hw⟩ := h.st sid s hs hc
    exact ⟨c, hw.keep hk⟩

/-- A new operation: the path gets longer. -/
theorem WitInv.op {E : Env K} (hE : E.Base) (hids : E.ha.Ids) {P : Prop} (hP : P → E.Sound)
    {X0 : ℕ → (ℕ → K) → Prop} {σ σ' : Core K} (h : WitInv E P X0 σ) {ν : ℕ} {nd : Node} {st : SS K}
    (hν : σ.nodes[ν]? = some nd) (hst : σ.states[nd.state]? = some st) {ti : ℕ} {t : Tr K}
    {g : Csr K × List K} {tlp : Lp K} (hg : AtGuard E P X0 σ st ti t g tlp) {r : Option ℕ}
    (hop : makeOp E σ ti t tlp st ν = .ok (σ', r)) : (r = none ∧ σ' = σ) ∨
      ∃ new, r = some new ∧ new = σ.ops.length ∧ σ'.nodes = σ.nodes ∧ σ'.waiting = σ.waiting ∧
        (∀ (k : ℕ) s, σ.states[k]? = some s → σ'.states[k]? = some s) ∧
        ∀ b : Bool, WitInv E P X0 { σ'.pushOp ν (.tr new) with
          waiting := if b then σ'.waiting ++ [new] else σ'.waiting } := by
  have hop' := hop
  rcases makeOp_shape hop with h0 | ⟨rfl, cen, post, p1, p2, p3, p4, p5, rfl⟩
  · exact .inl h0
  refine .inr ⟨_, rfl, rfl, rfl, rfl, fun k s hk => append_keep hk, fun b => ?_⟩
  have hm : Micros E σ _ := .single (.mild (.op (all := false) (b := b) (c := cen) (ti := ti) hν hst p2 p3
    (fun h => by cases h) p5))
  refine h.upd hm (makeOp_modeInv h.mode hν hst ⟨hg.tr, hg.mode⟩ p1) (fun i s hi hc => ?_) rfl rfl rfl
    fun _ => ⟨rfl, rfl⟩
  have hi' : (σ.states ++ [post])[i]? = some s := hi
  rcases append_inv hi' with ⟨hi', -⟩ | ⟨rfl, rfl⟩
  · exact .inl hi'
  refine .inr ⟨0, fun dst' hdst' hde => ?_⟩
  rw [p2] at hc
  obtain ⟨m, l, m1, m2, m3, m4⟩ := hg.mode
  obtain ⟨c, w1, w2⟩ := hg.wit hc
  obtain ⟨hh, hcc, cl, via, w, htl, hsp⟩ := w1 m m1 m2
  -- the path of the operation
  obtain ⟨p, q, k1, k2, k3, -⟩ := h.heap.conc.nd ν nd st hν hst hc
  have hpath : OPath σ p (cl.map Blk.steps) := by
    have := h.heap.opl p q st k2 (by rw [k3]; exact hst)
    rcases hsp with ⟨a1, a2⟩ | ⟨o, a1, a2⟩
    · rcases this with b1 | ⟨-, b1⟩
      · rw [a1] at b1; cases b1
      · rw [a2]; exact .root k2 b1
    · rcases this with b1 | ⟨b1, -⟩
      · rw [a1] at b1; cases b1; exact a2
      · rw [a1] at b1; cases b1
  obtain ⟨nd', n1, n2⟩ := hm.keep.2 ν nd hν
  have hnew : OPath _ σ.ops.length (cl.map Blk.steps ++ [st.stepIn]) :=
    .step (σ := { ({ σ with
          ops := σ.ops ++ [{ step := st.stepIn, parent := some ν, child := none, trans := some ti,
                             post := σ.states.length, center := cen }]
          states := σ.states ++ [s] } : Core K).pushOp ν (.tr σ.ops.length) with
        waiting := if b then σ.waiting ++ [σ.ops.length] else σ.waiting }) List.getElem?_concat_length rfl n1
      (by rw [n2, k1]; rfl) (hpath.keep hm.keep)
  -- the instance
  have htr := hE.trs st.mode m l ti t m1 m2 m3 m4 hg.tr
  obtain ⟨hgo, hgn⟩ := htr.guard g hg.guard
  have hh' := hh
  obtain ⟨ρ, hsh, -⟩ := hh'
  obtain ⟨c1, c2, c3, c4, c5, v0, hv0⟩ := hg.cut.facts hE.honest hsh.repr hsh.obj hgo
  have hcur : tlp.cur + tlp.dims ≤ tlp.numCols := by
    rw [c3.cur, c3.dims]; unfold Sys.numCols; rw [c4]; exact hsh.repr.curLe
  simp only [makeOp, bind_ok] at hop'
  obtain ⟨⟨lp1, r1⟩, h1, h2⟩ := hop'
  obtain ⟨e1, e2, -⟩ := pretransition_spec hE c1 hcur h1
  cases r1 with
  | none => simp at h2
  | some cn =>
    simp only [bind_ok, needSome_ok, need_ok, pure_ok, Prod.mk.injEq] at h2
    obtain ⟨dst, hdst, sy, hsy, ⟨lp2, f⟩, hf, _, hft, post', hpost, hσ, -⟩ := h2
    obtain rfl : s = post' := by
      have := congrArg (fun τ => τ.states) hσ
      simpa using this.symm
    rw [e1] at hsy
    rw [p1, hdst] at hdst'; cases hdst'
    have hcut := hg.cut
    obtain ⟨cc, s2, hcl, hadd, hfeas⟩ := hcut
    have hcc' : cc.toSys = st.lp.toSys := by
      have := clone_ok hcl
      rw [this]
      obtain ⟨X, R, hshp, -⟩ := hsh.repr.shape
      have := hshp.idx
      cases hq : st.lp.toSys
      simp_all
    have hco : cc.ObjInv := by
      have := clone_ok hcl
      rw [this]; exact hsh.obj
    obtain ⟨f1, -, -⟩ := isFeasible_spec hE.honest hfeas hco
    have f1 : tlp.toSys = s2 := f1
    have hn : ρ.n = (E.dyn st.mode).dims := hsh.n
    have htrans := trans_repr (by rw [hcc']; exact hsh.repr) hadd hgo.len hgo.wf (by rw [hn]; exact hgn)
      (by rw [f1] at hsy; exact hsy) htr.resetNe
      (by rw [hn]; exact (hE.dynFor _ m m1 m2).pos) htr.resetWF htr.minkWF htr.minkCWF htr.minkDims
    obtain ⟨f3, f4, -⟩ := isFeasible_spec hE.honest hf (by exact e2)
    have f3 : lp2.toSys = sy := f3
    rw [← f3] at htrans
    obtain ⟨q1, q2, q3, q4, q5⟩ := Repr.entry_ok hE hdst htrans f4 hpost
    obtain ⟨d1, d2⟩ := q1.ok _ (by rw [q2]; exact hdst) hde
    have htl' := htl.jump hE hids m1 m2 hh (fun hp => ⟨(hP hp).plain _ _ m1 m2, (hcc hp).1, w2 hp⟩)
      m3 m4 hg.tr hg.guard hg.cut hdst hsy (by rw [← f3, ← q3, d1, q2])
    have hz := q1.zero
    rw [← f3, ← q3, ← p1, ← hz] at htl'
    refine ⟨?_, fun _ => by omega, _, _, _, htl', .inr ⟨σ.ops.length, p5, ?_⟩⟩
    · obtain ⟨ρ', r1, r2⟩ := d2.toHi
      exact ⟨ρ', r1, fun y v hp => ⟨trivial, (r2 y v hp).2⟩⟩
    · rw [List.map_append]
      exact hnew

theorem ttCheck_wit {E : Env K} {P : Prop} {X0 : ℕ → (ℕ → K) → Prop} {σ σ' : Core K}
    (h : WitInv E P X0 σ) {t : Tr K} {g : Csr K × List K} {sid : ℕ} (ht : ttCheck E σ t g sid = .ok σ') :
    WitInv E P X0 σ' ∧ σ'.nodes = σ.nodes ∧ ∀ st, σ.states[sid]? = some st →
      ∃ lp, st.lp.Kept lp ∧ σ'.states[sid]? = some { st with lp := lp } := by
  rcases ttCheck_kept ht with rfl | ⟨st2, lp2, b, hst2, hk, rfl⟩
  · exact ⟨h, rfl, fun st hst => ⟨st.lp, .refl _, hst⟩⟩
  · refine ⟨?_, rfl, fun st hst => ?_⟩
    · have := h.setState (st' := { st2 with lp := lp2 }) hst2 ⟨rfl, rfl, rfl⟩ fun hc => by
        obtain ⟨c, hw⟩ := h.st sid st2 hst2 hc
        exact ⟨c, hw.kept hk⟩
      exact this.misc σ.cur b
    · rw [hst2] at hst; cases hst
      exact ⟨lp2, hk, List.getElem?_set_self (lt_of_getElem? hst2)⟩

/-- What is known of the state set whose guards are checked. -/
def GuardState (E : Env K) (P : Prop) (X0 : ℕ → (ℕ → K) → Prop) (σ : Core K) (nid sid i : ℕ) : Prop :=
  (∃ nd, σ.nodes[nid]? = some nd ∧ nd.state = sid) ∧
  ∀ st, σ.states[sid]? = some st → st.mode = i ∧ (st.concrete = true →
    ∃ c, StWit E P X0 σ st c ∧ (P → st.stepIn = 0 → E.set.urgent = true ∧ c = 1))

theorem GuardState.keep {E : Env K} {P : Prop} {X0 : ℕ → (ℕ → K) → Prop} {σ σ' : Core K} {nid sid i : ℕ}
    (h : GuardState E P X0 σ nid sid i) (hk : Keep σ σ')
    (hn : ∀ nd, σ.nodes[nid]? = some nd → ∃ nd', σ'.nodes[nid]? = some nd' ∧ nd'.state = nd.state)
    (hs : ∀ st', σ'.states[sid]? = some st' → ∃ st, σ.states[sid]? = some st ∧ ∃ lp, st.lp.Kept lp ∧
      st' = { st with lp := lp }) : GuardState E P X0 σ' nid sid i := by
  obtain ⟨⟨nd, h1, h2⟩, h3⟩ := h
  obtain ⟨nd', h4, h5⟩ := hn nd h1
  refine ⟨⟨nd', h4, h5.trans h2⟩, fun st' hst' => ?_⟩
  obtain ⟨st, hst, lp, hkl, rfl⟩ := hs st' hst'
  obtain ⟨a, b⟩ := h3 st hst
  refine ⟨a, fun hc => ?_⟩
  obtain ⟨c, w1, w2⟩ := b hc
  exact ⟨c, (w1.kept hkl).keep hk, w2⟩

/-- Checking one guard: the error is recorded, the operation made. -/
theorem errorReached_parts (σ : Core K) (b : Bool) (ce : List (CeSeg K)) :
    (σ.errorReached b ce).nodes = σ.nodes ∧ (σ.errorReached b ce).states = σ.states ∧
    (σ.errorReached b ce).ops = σ.ops := by
  unfold Core.errorReached
  split <;> exact ⟨rfl, rfl, rfl⟩

/-- The transition loop. -/
theorem guardLoop_wit {E : Env K} (hE : E.Base) (hids : E.ha.Ids) {P : Prop} (hP : P → E.Sound)
    {X0 : ℕ → (ℕ → K) → Prop} {nid sid : ℕ} {m : Mode K} {i : ℕ} {l : List ℕ}
    (hm : E.ha.modes[i]? = some m) (he : m.isError = false) (hl : E.ha.out[i]? = some l) :
    ∀ (ts : List ℕ) {σ σ' : Core K}, (∀ t ∈ ts, t ∈ l) → WitInv E P X0 σ →
    GuardState E P X0 σ nid sid i → guardLoop E nid sid σ ts = .ok σ' → WitInv E P X0 σ'
  | [], σ, σ', _, h, _, hg => by cases hg; exact h
  | ti :: ts, σ, σ', hts, h, hsid, hg => by
    simp only [guardLoop, bind_ok, needSome_ok] at hg
    obtain ⟨st, hst, t, ht, g, hgd, ⟨lp1, tl⟩, hgi, hg⟩ := hg
    have hts' : ∀ t ∈ ts, t ∈ l := fun t ht => hts t (by simp [ht])
    have hti : ti ∈ l := hts ti (by simp)
    obtain ⟨hmode, hwit⟩ := hsid.2 st hst
    have hkept : st.lp.Kept lp1 := guardIntersection_kept hgi
    have h1 : WitInv E P X0 (σ.setState sid { st with lp := lp1 }) :=
      h.setState hst ⟨rfl, rfl, rfl⟩ fun hc => by
        obtain ⟨c, w1, -⟩ := hwit hc
        exact ⟨c, w1.kept hkept⟩
    have hself : (σ.setState sid { st with lp := lp1 }).states[sid]? = some { st with lp := lp1 } :=
      List.getElem?_set_self (lt_of_getElem? hst)
    have hsid1 : GuardState E P X0 (σ.setState sid { st with lp := lp1 }) nid sid i := by
      refine hsid.keep (Micros.keep (E := E) (.single (.mild (.state hst ⟨rfl, rfl, rfl⟩))))
        (fun nd h => ⟨nd, h, rfl⟩) fun st' hst' => ?_
      rw [hself] at hst'; cases hst'
      exact ⟨st, hst, lp1, hkept, rfl⟩
    simp only at hg
    split at hg
    · exact guardLoop_wit hE hids hP hm he hl ts hts' h1 hsid1 hg
    · rename_i tlp
      simp only [bind_ok, needSome_ok] at hg
      obtain ⟨dst, hdst, ce, hce, hg⟩ := hg
      have hcut := (guardIntersection_cut hgi).2
      have hat : AtGuard E P X0 (σ.setState sid { st with lp := lp1 }) { st with lp := lp1 } ti t g tlp :=
        ⟨⟨m, l, by rw [← hmode] at hm; exact hm, he, by rw [← hmode] at hl; exact hl, hti⟩, ht, hgd, hcut,
          (hsid1.2 _ hself).2⟩
      have h2 : WitInv E P X0 (if dst.isError = true then
          (σ.setState sid { st with lp := lp1 }).errorReached st.concrete ce
          else σ.setState sid { st with lp := lp1 }) := by
        split
        · rename_i herr
          exact h1.err hE hP hat hdst herr hce
        · exact h1
      split at hg
      · cases hg; exact h2
      · simp only [bind_ok] at hg
        obtain ⟨σ1, hs1, σ2, hs2, hg⟩ := hg
        have hpar : ∀ τ, τ = (if dst.isError = true then
            (σ.setState sid { st with lp := lp1 }).errorReached st.concrete ce
            else σ.setState sid { st with lp := lp1 }) →
            τ.nodes = σ.nodes ∧ τ.states = (σ.setState sid { st with lp := lp1 }).states ∧
            Keep (σ.setState sid { st with lp := lp1 }) τ := by
          rintro τ rfl
          split
          · refine ⟨(errorReached_parts _ _ _).1, (errorReached_parts _ _ _).2.1, ?_⟩
            exact Micros.keep (E := E) (Milds.micros (all := true) (errorReached_mild _ _ _))
          · exact ⟨rfl, rfl, .refl _⟩
        generalize hτ : (if dst.isError = true then
            (σ.setState sid { st with lp := lp1 }).errorReached st.concrete ce
            else σ.setState sid { st with lp := lp1 }) = τ at h2 hs1 hpar
        obtain ⟨t1, t2, t3⟩ := hpar τ rfl
        have hsid2 : GuardState E P X0 τ nid sid i := by
          refine hsid1.keep t3 (fun nd h => ⟨nd, by rw [t1]; exact h, rfl⟩) fun st' hst' => ?_
          rw [t2] at hst'
          exact ⟨st', hst', st'.lp, .refl _, rfl⟩
        have hself2 : τ.states[sid]? = some { st with lp := lp1 } := by rw [t2]; exact hself
        have hat2 : AtGuard E P X0 τ { st with lp := lp1 } ti t g tlp :=
          ⟨hat.mode, ht, hgd, hcut, (hsid2.2 _ hself2).2⟩
        have k1 : WitInv E P X0 σ1 ∧ GuardState E P X0 σ1 nid sid i := by
          simp only [addSuccessor, bind_ok, pure_ok] at hs1
          obtain ⟨⟨σ3, r⟩, h3, rfl⟩ := hs1
          obtain ⟨nd, n1, n2⟩ := hsid2.1
          have hm' := addSuccessor_mild (all := true) n1 (by rw [n2]; exact hself2) (by
            simp only [addSuccessor, bind_ok, pure_ok]
            exact ⟨_, h3, rfl⟩ : addSuccessor E τ ti t tlp { st with lp := lp1 } nid = .ok _)
          rcases h2.op hE hids hP n1 (by rw [n2]; exact hself2) hat2 h3 with
            ⟨rfl, rfl⟩ | ⟨new, rfl, -, o1, o2, o3, o4⟩
          · exact ⟨h2, hsid2⟩
          · refine ⟨o4 true, hsid2.keep (hm'.micros (E := E)).keep (fun nd hnd => ?_) fun st' hst' => ?_⟩
            · obtain ⟨l, hl⟩ := hm'.node hnd
              exact ⟨_, hl, rfl⟩
            · have := o3 sid _ hself2
              have hst'' : σ3.states[sid]? = some st' := hst'
              rw [this] at hst''; cases hst''
              exact ⟨_, hself2, lp1, .refl _, rfl⟩
        obtain ⟨k2, k3, k4⟩ := ttCheck_wit k1.1 hs2
        refine guardLoop_wit hE hids hP hm he hl ts hts' k2 ?_ hg
        refine k1.2.keep (Micros.keep (E := E) (Milds.micros (all := true) (ttCheck_mild hs2)))
          (fun nd h => ⟨nd, by rw [k3]; exact h, rfl⟩) fun st' hst' => ?_
        cases hq : σ1.states[sid]? with
        | none =>
          exfalso
          rcases ttCheck_kept hs2 with rfl | ⟨st2, lp2, b, hst2, -⟩
          · rw [hq] at hst'; cases hst'
          · rw [hq] at hst2; cases hst2
        | some s =>
          obtain ⟨lp, a1, a2⟩ := k4 s hq
          rw [a2] at hst'; cases hst'
          exact ⟨s, rfl, lp, a1, rfl⟩

theorem checkGuards_wit {E : Env K} (hE : E.Base) (hids : E.ha.Ids) {P : Prop} (hP : P → E.Sound)
    {X0 : ℕ → (ℕ → K) → Prop} {σ σ' : Core K} (h : WitInv E P X0 σ) {c : ℕ × ℕ} (hc : σ.curState = some c)
    {st : SS K} (hst : σ.states[c.2]? = some st) {m : Mode K} (hm : E.ha.modes[st.mode]? = some m)
    (he : m.isError = false) (hcon : st.concrete = true → ∃ cc, StWit E P X0 σ st cc ∧
      (P → st.stepIn = 0 → E.set.urgent = true ∧ cc = 1)) (hg : checkGuards E σ = .ok σ') :
    WitInv E P X0 σ' := by
  simp only [checkGuards, bind_ok, needSome_ok] at hg
  obtain ⟨c', hc', st0, hst0, ts, hts, hg⟩ := hg
  rw [hc] at hc'; cases hc'
  rw [hst] at hst0; cases hst0
  obtain ⟨-, nd, n1, n2, -⟩ := curState_inv hc
  refine guardLoop_wit hE hids hP hm he hts ts (fun _ h => h) h ⟨⟨nd, n1, n2⟩, fun st1 h1 => ?_⟩ hg
  rw [hst] at h1; cases h1
  exact ⟨rfl, hcon⟩

theorem leftInvariant_wit {E : Env K} {P : Prop} {X0 : ℕ → (ℕ → K) → Prop} {σ σ' : Core K}
    (h : WitInv E P X0 σ) {b : Bool} (hl : σ.leftInvariant b = .ok σ') : WitInv E P X0 σ' := by
  simp only [Core.leftInvariant, bind_ok, needSome_ok, pure_ok] at hl
  obtain ⟨c, -, st, -, rfl⟩ := hl
  exact (h.push c.1 (.left st.stepIn b) rfl).misc none σ.tookTt

theorem WitInv.pushAll {E : Env K} {P : Prop} {X0 : ℕ → (ℕ → K) → Prop} (ν s : ℕ) : ∀ (qs : List (ℕ × Bool))
    {σ : Core K}, WitInv E P X0 σ →
    WitInv E P X0 (qs.foldl (fun σ q => σ.pushOp ν (.inv s q.1 q.2)) σ) ∧
    (qs.foldl (fun σ q => σ.pushOp ν (.inv s q.1 q.2)) σ).states = σ.states ∧
    (qs.foldl (fun σ q => σ.pushOp ν (.inv s q.1 q.2)) σ).cur = σ.cur
  | [], σ, h => ⟨h, rfl, rfl⟩
  | q :: qs, σ, h => by
    rw [List.foldl_cons]
    exact WitInv.pushAll ν s qs (h.push ν _ rfl)

theorem intersectCur_wit {E : Env K} (hE : E.Base) {P : Prop} (hP : P → E.Sound)
    {X0 : ℕ → (ℕ → K) → Prop} {σ σ' : Core K} (h : WitInv E P X0 σ) {c : ℕ × ℕ} (hc : σ.curState = some c)
    {st : SS K} (hst : σ.states[c.2]? = some st) {f : Bool} (hi : intersectCur E σ = .ok (σ', f)) :
    WitInv E P X0 σ' ∧ σ'.cur = σ.cur ∧ ∃ st', σ'.states[c.2]? = some st' ∧ st'.mode = st.mode ∧
      st'.stepIn = st.stepIn ∧ st'.concrete = st.concrete ∧
      (st.concrete = true → ∃ cc, StWit E P X0 σ' st' cc ∧ (P → cc = st.stepIn + 1)) := by
  have hmic : Micros E σ σ' := Milds.micros (all := true) (intersectCur_mild hi)
  simp only [intersectCur, bind_ok, needSome_ok, pure_ok, Prod.mk.injEq] at hi
  obtain ⟨c', hc', st0, hst0, m, hm, ⟨st', f', qs⟩, hii, rfl, -⟩ := hi
  rw [hc] at hc'; cases hc'
  rw [hst] at hst0; cases hst0
  have e := invLoop_like _ hii
  have hmode : st'.mode = st.mode := by rw [e]
  have hcon : st'.concrete = st.concrete := by rw [e]
  have hsi : st'.stepIn = st.stepIn := by rw [e]
  have hol : st'.opList = st.opList := by rw [e]
  have key : st.concrete = true → ∃ cc, StWit E P X0 σ st' cc ∧ (P → cc = st.stepIn + 1) := by
    intro hcc
    obtain ⟨cc, hcc'⟩ := h.st _ st hst hcc
    exact hcc'.inv hE hP hm hii
  have h1 : WitInv E P X0 (σ.setState c.2 st') := h.setState hst ⟨hmode, hcon, hol⟩ fun hcc => by
    obtain ⟨cc, k, -⟩ := key hcc
    exact ⟨cc, k⟩
  obtain ⟨b1, b2, b3⟩ := WitInv.pushAll c.1 st.stepIn qs h1
  refine ⟨b1, b3, st', ?_, hmode, hsi, hcon, fun hcc => ?_⟩
  · rw [b2]
    exact List.getElem?_set_self (lt_of_getElem? hst)
  · obtain ⟨cc, k, k'⟩ := key hcc
    exact ⟨cc, k.keep hmic.keep, k'⟩

theorem stepState_wit {E : Env K} (hE : E.Base) {P : Prop} {X0 : ℕ → (ℕ → K) → Prop} {σ σ' : Core K}
    (h : WitInv E P X0 σ) {sid : ℕ} {st : SS K} (hst : σ.states[sid]? = some st) {target : Option ℕ}
    (hcon : P → st.concrete = true → target = none ∧ StWit E P X0 σ st (st.stepIn + 1))
    (hs : stepState E σ sid target = .ok σ') :
    WitInv E P X0 σ' ∧ σ'.cur = σ.cur ∧ σ'.nodes = σ.nodes ∧ ∃ st', σ'.states[sid]? = some st' ∧
      st'.mode = st.mode ∧ st'.stepIn = target.getD (st.stepIn + 1) ∧ st'.concrete = st.concrete ∧
      (st.concrete = true → ∃ cc, StWit E P X0 σ' st' cc) := by
  have hmic : Micros E σ σ' := Milds.micros (all := true) (stepState_mild hs)
  simp only [stepState, bind_ok, needSome_ok, pure_ok] at hs
  obtain ⟨st0, hst0, m, hm, ⟨te, st'⟩, hss, rfl⟩ := hs
  rw [hst] at hst0; cases hst0
  have e := (step_like hss).1
  have hmode : st'.mode = st.mode := by rw [e]
  have hcc : st'.concrete = st.concrete := by rw [e]
  have hol : st'.opList = st.opList := by rw [e]
  have hsi : st'.stepIn = target.getD (st.stepIn + 1) := by rw [e]
  have hte : m.isError = false → ∀ u, σ.te st.mode = some u → u.Inv (E.dyn st.mode) :=
    fun he u hu => h.te _ m u hm he hu
  have key : st.concrete = true → ∃ cc, StWit E P X0 σ st' cc := by
    intro hc
    by_cases hp : P
    · obtain ⟨k1, k2⟩ := hcon hp hc
      exact ⟨_, k2.step hE hm hte (fun _ => ⟨k1, rfl⟩) hss⟩
    · obtain ⟨c, k⟩ := h.st sid st hst hc
      exact ⟨c, k.step hE hm hte (fun hp' => absurd hp' hp) hss⟩
  have h1 : WitInv E P X0 (σ.setState sid st') := h.setState hst ⟨hmode, hcc, hol⟩ key
  refine ⟨⟨hmic.heapWit h.heap, h.mode.same hmic.mkeep rfl rfl, fun i s hi hc => ?_, ?_, h1.ce, h1.has, h1.nr⟩, rfl, rfl, st',
    List.getElem?_set_self (lt_of_getElem? hst), hmode, hsi, hcc, fun hc => ?_⟩
  · obtain ⟨c, hw⟩ := h1.st i s hi hc
    exact ⟨c, hw.keep (Micros.keep (E := E) (Milds.micros (all := true) (Milds.misc (σ.setState sid st')
      σ.cur σ.queue σ.rep (Function.update σ.te st.mode te) σ.tookTt σ.hasAgg σ.hasConc)))⟩
  · intro i m' u hm' he' hu
    simp only at hu
    by_cases hi : i = st.mode
    · subst hi
      rw [Function.update_self] at hu
      rw [hm] at hm'; cases hm'
      exact SS.step_te (hE.dynFor _ _ hm he').laws (hte he') hss u hu
    · rw [Function.update_of_ne hi] at hu
      exact h.te i m' u hm' he' hu
  · obtain ⟨c, hw⟩ := key hc
    exact ⟨c, hw.keep hmic.keep⟩

end Hylaa
