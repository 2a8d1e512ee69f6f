import Verif.Proofs.CeRun2

/-! The invariant for C35 through replay, and the main loop. -/

set_option linter.unusedSectionVars false

namespace Hylaa
open Spec
variable {K : Type} [Field K] [LinearOrder K] [IsStrictOrderedRing K]

/-! ### Bookkeeping of the replay -/

def SameMode (σ : Core K) (p k : ℕ) : Prop := ∃ i, σ.nmode p = some i ∧ σ.nmode k = some i

/-- The operations collected lead to the mode of the node they replace. -/
def TOps (σ : Core K) (l : List ((ℕ × ℕ) × List ℕ)) : Prop :=
  ∀ q ∈ l, ∀ o ∈ q.2, ∃ i, σ.nmode q.1.2 = some i ∧ σ.pmode o = some i

structure RepInv (σ : Core K) : Prop where
  queue : ∀ q ∈ σ.queue, ∀ k ∈ q.2, SameMode σ q.1 k
  rep : ∀ r, σ.rep = some r → (∀ k ∈ r.children, SameMode σ r.parent k) ∧ TOps σ r.toOps

theorem SameMode.keep {σ σ' : Core K} (hk : MKeep σ σ') {p k : ℕ} (h : SameMode σ p k) : SameMode σ' p k := by
  obtain ⟨i, a, b⟩ := h
  exact ⟨i, hk.nm a, hk.nm b⟩

theorem TOps.keep {σ σ' : Core K} (hk : MKeep σ σ') {l : List ((ℕ × ℕ) × List ℕ)} (h : TOps σ l) :
    TOps σ' l := by
  intro q hq o ho
  obtain ⟨i, a, b⟩ := h q hq o ho
  exact ⟨i, hk.nm a, hk.pm b⟩

theorem RepInv.keep {σ σ' : Core K} (h : RepInv σ) (hk : MKeep σ σ') (hq : σ'.queue = σ.queue)
    (hr : σ'.rep = σ.rep) : RepInv σ' := by
  refine ⟨fun q hq' k hk' => ?_, fun r hr' => ?_⟩
  · rw [hq] at hq'
    exact (h.queue q hq' k hk').keep hk
  · rw [hr] at hr'
    obtain ⟨a, b⟩ := h.rep r hr'
    exact ⟨fun k hk' => (a k hk').keep hk, b.keep hk⟩

theorem Mild.qr {σ σ' : Core K} (h : Mild true σ σ') : σ'.queue = σ.queue ∧ σ'.rep = σ.rep := by
  cases h with
  | state => exact ⟨rfl, rfl⟩
  | misc _ _ _ _ _ _ _ _ h => exact h rfl
  | push => exact ⟨rfl, rfl⟩
  | op => exact ⟨rfl, rfl⟩

theorem Milds.qr {σ σ' : Core K} (h : Milds true σ σ') : σ'.queue = σ.queue ∧ σ'.rep = σ.rep := by
  induction h with
  | refl => exact ⟨rfl, rfl⟩
  | tail _ h2 ih => exact ⟨h2.qr.1.trans ih.1, h2.qr.2.trans ih.2⟩

theorem Milds.mkeep {all : Bool} {σ σ' : Core K} (h : Milds all σ σ') : MKeep σ σ' := by
  induction h with
  | refl => exact .refl _
  | tail _ h2 ih => exact ih.trans h2.mkeep

theorem addToOps_tops {σ : Core K} {k c o i : ℕ} (hc : σ.nmode c = some i) (ho : σ.pmode o = some i) :
    ∀ {l : List ((ℕ × ℕ) × List ℕ)}, TOps σ l → TOps σ (addToOps l (k, c) o)
  | [], _ => by
    intro q hq o' ho'
    simp only [addToOps, List.mem_singleton] at hq
    subst hq
    simp only [List.mem_singleton] at ho'
    subst ho'
    exact ⟨i, hc, ho⟩
  | (k', os) :: l, h => by
    unfold addToOps
    split
    · rename_i hkk
      intro q hq o' ho'
      rcases List.mem_cons.1 hq with rfl | hq
      · simp only [List.mem_append, List.mem_singleton] at ho'
        rcases ho' with ho' | rfl
        · exact h _ (List.mem_cons_self ..) o' ho'
        · subst hkk; exact ⟨i, hc, ho⟩
      · exact h q (by simp [hq]) o' ho'
    · intro q hq o' ho'
      rcases List.mem_cons.1 hq with rfl | hq
      · exact h _ (List.mem_cons_self ..) o' ho'
      · exact addToOps_tops hc ho (fun q hq => h q (by simp [hq])) q hq o' ho'

/-! ### Operations of the replay -/

theorem replayTr_wit {E : Env K} (hE : E.Base) (hids : E.ha.Ids) {P : Prop} (hP : ¬ P)
    {X0 : ℕ → (ℕ → K) → Prop} {σ : Core K} (h : WitInv E P X0 σ) {p kid oid : ℕ}
    {toOps : List ((ℕ × ℕ) × List ℕ)} (hto : TOps σ toOps) (hsm : SameMode σ p kid) {op : OpTr K}
    (hop : σ.ops[oid]? = some op) (hpar : op.parent = some p)
    {r : Core K × List ((ℕ × ℕ) × List ℕ)} (hr : replayTr E σ kid oid toOps = .ok r) :
    WitInv E P X0 r.1 ∧ TOps r.1 r.2 := by
  have hmk := (replayTr_mild hr).mkeep
  simp only [replayTr, bind_ok, needSome_ok] at hr
  obtain ⟨n, hn, o, ho, σ1, h1, st, hst, ti, hti, t, ht, g, hg, ⟨lp1, tl⟩, hgi, hr⟩ := hr
  rw [hop] at ho; cases ho
  obtain ⟨i, hp, hkid⟩ := hsm
  obtain ⟨ti', t', i', b1, b2, b3, b4⟩ := h.mode.op oid op p hop hpar
  rw [hti] at b1; cases b1
  obtain ⟨b2, m, l, m1, m2, m3, m4⟩ := b2
  rw [ht] at b2; cases b2
  rw [hp] at b3; cases b3
  -- the step
  rw [nmode_of hn] at hkid
  have hex : ∃ st0, σ.states[n.state]? = some st0 ∧ st0.mode = i := by
    unfold Core.smode at hkid
    cases hq : σ.states[n.state]? with
    | none => rw [hq] at hkid; cases hkid
    | some st0 => rw [hq] at hkid; exact ⟨st0, rfl, Option.some.inj hkid⟩
  obtain ⟨st0, hst0, hmode0⟩ := hex
  obtain ⟨j1, -, j3, st2, j4, j5, j6, j7, j8⟩ := stepState_wit hE h hst0 (fun hp => absurd hp hP) h1
  obtain rfl : st2 = st := Option.some.inj (j4.symm.trans hst)
  have hmode : st2.mode = i := j5.trans hmode0
  have hkept : st2.lp.Kept lp1 := guardIntersection_kept hgi
  have hn1 : σ1.nodes[kid]? = some n := by rw [j3]; exact hn
  have h2 : WitInv E P X0 (σ1.setState n.state { st2 with lp := lp1 }) :=
    j1.setState hst ⟨rfl, rfl, rfl⟩ fun hc => by
      obtain ⟨c, w1⟩ := j1.st _ st2 hst hc
      exact ⟨c, w1.kept hkept⟩
  have hself : (σ1.setState n.state { st2 with lp := lp1 }).states[n.state]? = some { st2 with lp := lp1 } :=
    List.getElem?_set_self (lt_of_getElem? hst)
  simp only at hr
  split at hr
  · cases hr
    exact ⟨h2, hto.keep hmk⟩
  rename_i tlp
  simp only [bind_ok, needSome_ok, pure_ok] at hr
  obtain ⟨dst, hdst, ce, hce, ⟨σ3, new⟩, h3, rfl⟩ := hr
  have hcut := (guardIntersection_cut hgi).2
  have hat : ∀ τ : Core K, WitInv E P X0 τ → τ.states = (σ1.setState n.state { st2 with lp := lp1 }).states →
      AtGuard E P X0 τ { st2 with lp := lp1 } ti t g tlp := by
    intro τ hτ hs
    refine ⟨⟨m, l, by rw [show ({ st2 with lp := lp1 } : SS K).mode = i from hmode]; exact m1, m2, by
      rw [show ({ st2 with lp := lp1 } : SS K).mode = i from hmode]; exact m3, m4⟩, ht, hg, hcut,
      fun hc => ?_⟩
    obtain ⟨c, w⟩ := hτ.st n.state { st2 with lp := lp1 } (by rw [hs]; exact hself) hc
    exact ⟨c, w, fun hp => absurd hp hP⟩
  have h4 : WitInv E P X0 (if dst.isError = true then
      (σ1.setState n.state { st2 with lp := lp1 }).errorReached st2.concrete ce
      else σ1.setState n.state { st2 with lp := lp1 }) := by
    split
    · rename_i herr
      exact h2.err hE (fun hp => absurd hp hP) (hat _ h2 rfl) hdst herr hce
    · exact h2
  have hpar' : ∀ τ, τ = (if dst.isError = true then
      (σ1.setState n.state { st2 with lp := lp1 }).errorReached st2.concrete ce
      else σ1.setState n.state { st2 with lp := lp1 }) →
      τ.nodes = σ1.nodes ∧ τ.states = (σ1.setState n.state { st2 with lp := lp1 }).states := by
    rintro τ rfl
    split
    · exact ⟨(errorReached_parts _ _ _).1, (errorReached_parts _ _ _).2.1⟩
    · exact ⟨rfl, rfl⟩
  generalize hτ : (if dst.isError = true then
      (σ1.setState n.state { st2 with lp := lp1 }).errorReached st2.concrete ce
      else σ1.setState n.state { st2 with lp := lp1 }) = τ at h3 h4 hpar'
  obtain ⟨t1, t2⟩ := hpar' τ rfl
  have hsh := makeOp_shape h3
  rcases h4.op hE hids (fun hp => absurd hp hP) (by rw [t1]; exact hn1) (by rw [t2]; exact hself) (hat τ h4 t2) h3 with
    ⟨rfl, rfl⟩ | ⟨new, rfl, hnew, o1, o2, o3, o4⟩
  · exact ⟨h4, hto.keep hmk⟩
  simp only at hmk ⊢
  cases hch : op.child with
  | none =>
    rw [hch] at hmk
    exact ⟨o4 true, hto.keep hmk⟩
  | some c =>
    rw [hch] at hmk
    have hf := o4 false
    refine ⟨hf, addToOps_tops (i := t.dst) ?_ ?_ (hto.keep hmk)⟩
    · obtain ⟨nd, c1, c2⟩ := h.heap.child oid op c hop hch
      obtain ⟨i2, d1, d2⟩ := h.mode.nd c nd oid c1 c2
      rw [pmode_of hop, b4] at d1
      cases d1
      exact hmk.nm d2
    · rcases hsh with ⟨h0, -⟩ | ⟨-, cen, post, p1, p2, p3, p4, p5, rfl⟩
      · cases h0
      · rw [hnew, pmode_of (op := OpTr.mk st2.stepIn (some kid) none (some ti) τ.states.length cen) List.getElem?_concat_length,
          smode_of (st := post) List.getElem?_concat_length, p1]

theorem replayTr_qr {E : Env K} {σ : Core K} {kid oid : ℕ} {t : List ((ℕ × ℕ) × List ℕ)}
    {r : Core K × List ((ℕ × ℕ) × List ℕ)} (h : replayTr E σ kid oid t = .ok r) :
    r.1.queue = σ.queue ∧ r.1.rep = σ.rep := by
  simp only [replayTr, bind_ok, needSome_ok] at h
  obtain ⟨n, hn, o, -, σ1, h1, st, hst, ti, -, tr, -, g, -, ⟨lp, tl⟩, -, h⟩ := h
  have q := Milds.qr (stepState_mild h1)
  simp only at h
  split at h
  · cases h; exact q
  simp only [bind_ok, needSome_ok, pure_ok] at h
  obtain ⟨dst, hdst, ce, hce, ⟨σ3, new⟩, h3, rfl⟩ := h
  have hE : ∀ b : Bool, (if b = true then (σ1.setState n.state { st with lp := lp }).errorReached st.concrete ce
      else σ1.setState n.state { st with lp := lp }).queue = σ1.queue ∧
      (if b = true then (σ1.setState n.state { st with lp := lp }).errorReached st.concrete ce
      else σ1.setState n.state { st with lp := lp }).rep = σ1.rep := by
    intro b
    cases b
    · exact ⟨rfl, rfl⟩
    · have := Milds.qr (errorReached_mild (all := true) (σ1.setState n.state { st with lp := lp }) st.concrete ce)
      exact this
  have hq3 : σ3.queue = σ1.queue ∧ σ3.rep = σ1.rep := by
    rcases makeOp_shape h3 with ⟨-, rfl⟩ | ⟨-, c, post, -, -, -, -, -, rfl⟩
    · exact hE _
    · exact hE _
  cases new with
  | none => exact ⟨hq3.1.trans q.1, hq3.2.trans q.2⟩
  | some new =>
    simp only
    cases o.child with
    | none => exact ⟨hq3.1.trans q.1, hq3.2.trans q.2⟩
    | some c => exact ⟨hq3.1.trans q.1, hq3.2.trans q.2⟩

theorem replayOp_qr {E : Env K} {σ : Core K} {kid : ℕ} {o : NOp} {t : List ((ℕ × ℕ) × List ℕ)}
    {r : Core K × List ((ℕ × ℕ) × List ℕ)} (h : replayOp E σ kid o t = .ok r) :
    r.1.queue = σ.queue ∧ r.1.rep = σ.rep := by
  simp only [replayOp, bind_ok, needSome_ok] at h
  obtain ⟨n, -, h⟩ := h
  split at h
  · cases h; exact ⟨rfl, rfl⟩
  cases o with
  | left => cases h; exact ⟨rfl, rfl⟩
  | tr => exact replayTr_qr h
  | inv =>
    simp only [bind_ok, pure_ok] at h
    obtain ⟨σ1, h1, rfl⟩ := h
    exact Milds.qr (replayInv_mild h1)

theorem replayKids_qr {E : Env K} {o : NOp} : ∀ (kids : List ℕ) {σ : Core K}
    {t : List ((ℕ × ℕ) × List ℕ)} {r : Core K × List ((ℕ × ℕ) × List ℕ)},
    replayKids E o σ kids t = .ok r → r.1.queue = σ.queue ∧ r.1.rep = σ.rep
  | [], σ, t, r, h => by cases h; exact ⟨rfl, rfl⟩
  | k :: kids, σ, t, r, h => by
    simp only [replayKids, bind_ok] at h
    obtain ⟨r1, h1, h⟩ := h
    have a := replayOp_qr h1
    have b := replayKids_qr kids h
    exact ⟨b.1.trans a.1, b.2.trans a.2⟩

theorem replayLoop_qr {E : Env K} {kids : List ℕ} : ∀ (ops : List NOp) {σ : Core K} {cur : ℕ}
    {only lft : Bool} {k : ℕ} {t : List ((ℕ × ℕ) × List ℕ)}
    {r : Core K × (ℕ × Bool × ℕ × List ((ℕ × ℕ) × List ℕ))},
    replayLoop E kids σ ops cur only lft k t = .ok r → r.1.queue = σ.queue ∧ r.1.rep = σ.rep
  | [], σ, cur, only, lft, k, t, r, h => by cases h; exact ⟨rfl, rfl⟩
  | o :: ops, σ, cur, only, lft, k, t, r, h => by
    simp only [replayLoop, bind_ok] at h
    obtain ⟨s, -, h⟩ := h
    generalize (if (decide (s > cur) && !only) = true then cur + 1 else cur) = cur' at h
    generalize (only || (decide (s > cur) && !only)) = only' at h
    split at h
    · cases h; exact ⟨rfl, rfl⟩
    split at h
    · cases h; exact ⟨rfl, rfl⟩
    simp only [bind_ok] at h
    obtain ⟨r1, h1, h⟩ := h
    have a := replayKids_qr kids h1
    have b := replayLoop_qr ops h
    exact ⟨b.1.trans a.1, b.2.trans a.2⟩

theorem checkIntersection_kept {S : Solver K} {lp lp' : Lp K} {lc : LinCon K} {tol : K} {r : Option Bool}
    (h : checkIntersection S lp lc tol = .ok (lp', r)) : lp.Kept lp' := by
  simp only [checkIntersection, bind_ok, pure_ok, Prod.mk.injEq] at h
  obtain ⟨lp1, h1, r1, h2, rfl, -⟩ := h
  have k1 : lp.Kept lp1 := ⟨setMinDirCsr_toSys h1, fun ho => (setMinDirCsr_spec h1 ho).1⟩
  exact k1.trans (minimize_keeps (r := r1.2) h2)

theorem isFeasible_kept {S : Solver K} {lp lp' : Lp K} {b : Bool} (h : isFeasible S lp = .ok (lp', b)) :
    lp.Kept lp' := by
  unfold isFeasible at h
  split at h
  · cases h
  · rename_i q
    cases h
    exact minimize_keeps q

theorem replayInv_wit {E : Env K} (hE : E.Base) {P : Prop} (hP : ¬ P)
    {X0 : ℕ → (ℕ → K) → Prop} {σ σ' : Core K} (h : WitInv E P X0 σ) {kid s idx : ℕ}
    (hr : replayInv E σ kid s idx = .ok σ') : WitInv E P X0 σ' := by
  simp only [replayInv, bind_ok, needSome_ok] at hr
  obtain ⟨n, hn, σ1, h1, st, hst, m, hm, lc, hlc, ⟨lp1, r⟩, hci, hr⟩ := hr
  have hex : ∃ st0, σ.states[n.state]? = some st0 := by
    have := h1
    simp only [stepState, bind_ok, needSome_ok] at this
    obtain ⟨st0, h0, -⟩ := this
    exact ⟨st0, h0⟩
  obtain ⟨st0, hst0⟩ := hex
  obtain ⟨j1, -, j3, -⟩ := stepState_wit hE h hst0 (fun hp => absurd hp hP) h1
  have hkept := checkIntersection_kept hci
  have h2 : WitInv E P X0 (σ1.setState n.state { st with lp := lp1 }) :=
    j1.setState hst ⟨rfl, rfl, rfl⟩ fun hc => by
      obtain ⟨c, w1⟩ := j1.st _ st hst hc
      exact ⟨c, w1.kept hkept⟩
  simp only at hr
  split at hr
  · cases hr; exact h2.push _ _ rfl
  · cases hr; exact h2
  · simp only [bind_ok, pure_ok] at hr
    obtain ⟨⟨st3, b⟩, hadd, ⟨lp4, f⟩, hf, rfl⟩ := hr
    have e := addInv_like hadd
    have hmode : st3.mode = st.mode := by rw [e]
    have hcon : st3.concrete = st.concrete := by rw [e]
    have hol : st3.opList = st.opList := by rw [e]
    have h3 : WitInv E P X0 (σ1.setState n.state { st3 with lp := lp4 }) :=
      j1.setState hst ⟨hmode, hcon, hol⟩ fun hc => by
        obtain ⟨c, w1⟩ := j1.st _ st hst hc
        exact ⟨c, ((w1.kept hkept).addInv hE hP hm (List.mem_of_getElem? hlc) hadd).kept (isFeasible_kept hf)⟩
    have h4 := h3.push kid (.inv s idx b) rfl
    simp only
    split
    · exact h4
    · exact h4.push _ _ rfl

theorem replayOp_wit {E : Env K} (hE : E.Base) (hids : E.ha.Ids) {P : Prop} (hP : ¬ P)
    {X0 : ℕ → (ℕ → K) → Prop} {σ : Core K} (h : WitInv E P X0 σ) {p kid : ℕ} {o : NOp}
    {toOps : List ((ℕ × ℕ) × List ℕ)} (hto : TOps σ toOps) (hsm : SameMode σ p kid)
    (hop : ∀ oid, o = .tr oid → ∃ op, σ.ops[oid]? = some op ∧ op.parent = some p)
    {r : Core K × List ((ℕ × ℕ) × List ℕ)} (hr : replayOp E σ kid o toOps = .ok r) :
    WitInv E P X0 r.1 ∧ TOps r.1 r.2 := by
  have hmk := (replayOp_mild hr).mkeep
  simp only [replayOp, bind_ok, needSome_ok] at hr
  obtain ⟨n, hn, hr⟩ := hr
  split at hr
  · cases hr; exact ⟨h, hto⟩
  cases o with
  | left s tb => cases hr; exact ⟨h.push _ _ rfl, hto.keep hmk⟩
  | tr oid =>
    obtain ⟨op, h1, h2⟩ := hop oid rfl
    exact replayTr_wit hE hids hP h hto hsm h1 h2 hr
  | inv s i b =>
    simp only [bind_ok, pure_ok] at hr
    obtain ⟨σ1, h1, rfl⟩ := hr
    exact ⟨replayInv_wit hE hP h h1, hto.keep hmk⟩

theorem replayKids_wit {E : Env K} (hE : E.Base) (hids : E.ha.Ids) {P : Prop} (hP : ¬ P)
    {X0 : ℕ → (ℕ → K) → Prop} {p : ℕ} {o : NOp} : ∀ (kids : List ℕ) {σ : Core K}
    {toOps : List ((ℕ × ℕ) × List ℕ)} {r : Core K × List ((ℕ × ℕ) × List ℕ)}, WitInv E P X0 σ →
    TOps σ toOps → (∀ k ∈ kids, SameMode σ p k) →
    (∀ oid, o = .tr oid → ∃ op, σ.ops[oid]? = some op ∧ op.parent = some p) →
    replayKids E o σ kids toOps = .ok r → WitInv E P X0 r.1 ∧ TOps r.1 r.2
  | [], σ, toOps, r, h, hto, _, _, hr => by cases hr; exact ⟨h, hto⟩
  | k :: kids, σ, toOps, r, h, hto, hsm, hop, hr => by
    simp only [replayKids, bind_ok] at hr
    obtain ⟨r1, h1, hr⟩ := hr
    obtain ⟨a, b⟩ := replayOp_wit hE hids hP h hto (hsm k (by simp)) hop h1
    have hmk := (replayOp_mild h1).mkeep
    refine replayKids_wit hE hids hP kids a b (fun k hk => (hsm k (by simp [hk])).keep hmk) (fun oid ho => ?_) hr
    obtain ⟨op, q1, q2⟩ := hop oid ho
    obtain ⟨op', q3, -, q4, -⟩ := hmk.o oid op q1
    exact ⟨op', q3, q4.trans q2⟩

theorem replayLoop_wit {E : Env K} (hE : E.Base) (hids : E.ha.Ids) {P : Prop} (hP : ¬ P)
    {X0 : ℕ → (ℕ → K) → Prop} {p : ℕ} {kids : List ℕ} : ∀ (ops : List NOp) {σ : Core K} {cur : ℕ}
    {only lft : Bool} {k : ℕ} {toOps : List ((ℕ × ℕ) × List ℕ)}
    {r : Core K × (ℕ × Bool × ℕ × List ((ℕ × ℕ) × List ℕ))}, WitInv E P X0 σ →
    TOps σ toOps → (∀ k ∈ kids, SameMode σ p k) →
    (∀ oid, .tr oid ∈ ops → ∃ op, σ.ops[oid]? = some op ∧ op.parent = some p) →
    replayLoop E kids σ ops cur only lft k toOps = .ok r → WitInv E P X0 r.1 ∧ TOps r.1 r.2.2.2.2
  | [], σ, cur, only, lft, k, toOps, r, h, hto, _, _, hr => by cases hr; exact ⟨h, hto⟩
  | o :: ops, σ, cur, only, lft, k, toOps, r, h, hto, hsm, hop, hr => by
    simp only [replayLoop, bind_ok] at hr
    obtain ⟨s, -, hr⟩ := hr
    generalize (if (decide (s > cur) && !only) = true then cur + 1 else cur) = cur' at hr
    generalize (only || (decide (s > cur) && !only)) = only' at hr
    split at hr
    · cases hr; exact ⟨h, hto⟩
    split at hr
    · cases hr; exact ⟨h, hto⟩
    simp only [bind_ok] at hr
    obtain ⟨r1, h1, hr⟩ := hr
    obtain ⟨a, b⟩ := replayKids_wit hE hids hP kids h hto hsm (fun oid ho => hop oid (by simp [ho])) h1
    have hmk := (replayKids_mild _ h1).mkeep
    refine replayLoop_wit hE hids hP ops a b (fun k hk => (hsm k hk).keep hmk) (fun oid ho => ?_) hr
    obtain ⟨op, q1, q2⟩ := hop oid (by simp [ho])
    obtain ⟨op', q3, -, q4, -⟩ := hmk.o oid op q1
    exact ⟨op', q3, q4.trans q2⟩

theorem advanceKids_wit {E : Env K} (hE : E.Base) {P : Prop} (hP : ¬ P)
    {X0 : ℕ → (ℕ → K) → Prop} {cur : ℕ} {chk : Bool} : ∀ (kids : List ℕ) {σ σ' : Core K},
    WitInv E P X0 σ → advanceKids E cur chk σ kids = .ok σ' → WitInv E P X0 σ'
  | [], σ, σ', h, hr => by cases hr; exact h
  | k :: kids, σ, σ', h, hr => by
    simp only [advanceKids, bind_ok, needSome_ok] at hr
    obtain ⟨n, hn, σ1, h1, hr⟩ := hr
    refine advanceKids_wit hE hP kids ?_ hr
    split at h1
    · cases h1; exact h
    · simp only [bind_ok, needSome_ok, assert_ok, pure_ok] at h1
      obtain ⟨σ2, h2, st, hst, _, -, rfl⟩ := h1
      have hex : ∃ st0, σ.states[n.state]? = some st0 := by
        have := h2
        simp only [stepState, bind_ok, needSome_ok] at this
        obtain ⟨st0, h0, -⟩ := this
        exact ⟨st0, h0⟩
      obtain ⟨st0, hst0⟩ := hex
      exact (stepState_wit hE h hst0 (fun hp => absurd hp hP) h2).1

/-- The replay bookkeeping may be changed at will. -/
theorem WitInv.queue {E : Env K} {P : Prop} (hP : ¬ P) {X0 : ℕ → (ℕ → K) → Prop} {σ : Core K}
    (h : WitInv E P X0 σ) (q : List (ℕ × List ℕ)) (r : Option Replay) :
    WitInv E P X0 { σ with queue := q, rep := r } := by
  have hm : Micros E σ { σ with queue := q, rep := r } := Milds.micros (all := false)
    (Milds.misc σ σ.cur q r σ.te σ.tookTt σ.hasAgg σ.hasConc (fun h => by cases h))
  exact h.upd hm (h.mode.same hm.mkeep rfl rfl) (fun _ _ h _ => .inl h) rfl rfl rfl fun hp => absurd hp hP

theorem finishReplay_wit {E : Env K} {P : Prop} (hP : ¬ P) {X0 : ℕ → (ℕ → K) → Prop} :
    ∀ (l : List ((ℕ × ℕ) × List ℕ)) {σ σ' : Core K}, WitInv E P X0 σ → RepInv σ → TOps σ l →
    finishReplay E σ l = .ok σ' → WitInv E P X0 σ' ∧ RepInv σ'
  | [], σ, σ', h, hq, _, hr => by cases hr; exact ⟨h, hq⟩
  | ((a, c), ops) :: l, σ, σ', h, hq, hto, hr => by
    simp only [finishReplay, bind_ok, needSome_ok] at hr
    obtain ⟨n, hn, st, hst, ⟨σ1, nid⟩, h1, hr⟩ := hr
    have hi : ∀ o ∈ ops, σ.pmode o = some st.mode := by
      intro o ho
      obtain ⟨i, h1, h2⟩ := hto _ (List.mem_cons_self ..) o ho
      rw [nmode_of hn, smode_of hst] at h1
      cases h1; exact h2
    obtain ⟨w1, w2, w3, w4⟩ := makeNode_wit h h1 hi
    have hmk := makeNode_mkeep h1
    have hmk2 : MKeep σ1 { σ1 with queue := σ1.queue ++ [(c, [nid])] } :=
      ⟨fun _ _ h => h, fun _ nd h => ⟨nd, h, rfl, rfl⟩, fun _ op h => ⟨op, h, rfl, rfl, rfl⟩⟩
    refine finishReplay_wit hP l (w1.queue hP (σ1.queue ++ [(c, [nid])]) σ1.rep) ⟨fun q hq' k hk => ?_, fun r hr => ?_⟩
      (fun q hq' => (TOps.keep (hmk.trans hmk2) fun q hq => hto q (by simp [hq])) q hq') hr
    · simp only [List.mem_append, List.mem_singleton] at hq'
      rcases hq' with hq' | rfl
      · exact (hq.queue q (by rw [← w3]; exact hq') k hk).keep (hmk.trans hmk2)
      · simp only [List.mem_singleton] at hk
        subst hk
        refine ⟨st.mode, hmk2.nm (hmk.nm ?_), hmk2.nm w2⟩
        rw [nmode_of hn, smode_of hst]
    · obtain ⟨b1, b2⟩ := hq.rep r (by rw [← w4]; exact hr)
      exact ⟨fun k hk => (b1 k hk).keep (hmk.trans hmk2), b2.keep (hmk.trans hmk2)⟩

theorem stepReplay_wit {E : Env K} (hE : E.Base) (hids : E.ha.Ids) {P : Prop} (hP : ¬ P)
    {X0 : ℕ → (ℕ → K) → Prop} {σ σ' : Core K} (h : WitInv E P X0 σ) (hq : RepInv σ)
    (hs : stepReplay E σ = .ok σ') : WitInv E P X0 σ' ∧ RepInv σ' := by
  simp only [stepReplay, bind_ok, needSome_ok] at hs
  obtain ⟨⟨σ0, r⟩, hi, pn, hpn, o, ho, s, -, ⟨σ1, cur, lft, kk, tos⟩, hl, σ2, ha, hs⟩ := hs
  have h0 : WitInv E P X0 σ0 ∧ RepInv σ0 ∧ (∀ k ∈ r.children, SameMode σ0 r.parent k) ∧ TOps σ0 r.toOps := by
    unfold initReplay at hi
    split at hi
    · rename_i hr'
      cases hi
      obtain ⟨a, b⟩ := hq.rep r hr'
      exact ⟨h, hq, a, b⟩
    · rename_i p ks q hr' hq'
      cases hi
      have hmk : MKeep σ { σ with queue := q } :=
        ⟨fun _ _ h => h, fun _ nd h => ⟨nd, h, rfl, rfl⟩, fun _ op h => ⟨op, h, rfl, rfl, rfl⟩⟩
      refine ⟨h.queue hP q σ.rep, ⟨fun x hx k hk => ?_, fun r hr => ?_⟩, fun k hk => ?_, ?_⟩
      · exact (hq.queue x (by rw [hq']; simp [hx]) k hk).keep hmk
      · have hr2 : σ.rep = some r := hr
        rw [hr'] at hr2; cases hr2
      · exact (hq.queue (p, ks) (by rw [hq']; simp) k hk).keep hmk
      · intro x hx; simp at hx
    · cases hi
  obtain ⟨a1, a2, a3, a4⟩ := h0
  simp only at hpn hl ha hs
  obtain ⟨b1, b2⟩ := replayLoop_wit hE hids hP _ a1 a4 a3 (fun oid hoid =>
    a1.mode.tr r.parent pn oid hpn (List.mem_of_mem_drop hoid)) hl
  have c1 := advanceKids_wit hE hP _ b1 ha
  have k1 := (replayLoop_mild _ hl).mkeep
  have k2 := Milds.mkeep (advanceKids_mild (all := true) _ ha)
  have q2 := Milds.qr (advanceKids_mild (all := true) _ ha)
  have hk := k1.trans k2
  simp only at b1 b2 k1 hk
  have hqr := replayLoop_qr _ hl
  simp only at hqr
  have hq2 : ∀ r', (∀ k ∈ r.children, SameMode σ2 r.parent k) → (r' = none ∨ ∃ to', TOps σ2 to' ∧ ∃ i, r' = some { r with idx := i, toOps := to' }) →
      RepInv { σ2 with rep := r' } := by
    intro r' hch hr'
    have hmk2 : MKeep σ2 { σ2 with rep := r' } :=
      ⟨fun _ _ h => h, fun _ nd h => ⟨nd, h, rfl, rfl⟩, fun _ op h => ⟨op, h, rfl, rfl, rfl⟩⟩
    refine ⟨fun x hx k hk' => ?_, fun r2 hr2 => ?_⟩
    · exact (a2.queue x (by rw [← hqr.1, ← q2.1]; exact hx) k hk').keep (hk.trans hmk2)
    · rcases hr' with rfl | ⟨to', h1, i, rfl⟩
      · cases hr2
      · cases hr2
        exact ⟨fun k hk' => (hch k hk').keep hmk2, h1.keep hmk2⟩
  have hch : ∀ k ∈ r.children, SameMode σ2 r.parent k := fun k hk' => (a3 k hk').keep hk
  split at hs
  · exact finishReplay_wit hP _ (c1.queue hP σ2.queue none) (hq2 none hch (.inl rfl))
      (TOps.keep ⟨fun _ _ h => h, fun _ nd h => ⟨nd, h, rfl, rfl⟩, fun _ op h => ⟨op, h, rfl, rfl, rfl⟩⟩
        (b2.keep k2)) hs
  · cases hs
    exact ⟨c1.queue hP σ2.queue _, hq2 _ hch (.inr ⟨tos, b2.keep k2, _, rfl⟩)⟩

theorem beginReplay_wit {E : Env K} {P : Prop} (hP : ¬ P)
    {X0 : ℕ → (ℕ → K) → Prop} {σ σ' : Core K} (h : WitInv E P X0 σ) (hq : RepInv σ) {nid : ℕ}
    (hs : beginReplay E σ nid = .ok σ') : WitInv E P X0 σ' ∧ RepInv σ' := by
  simp only [beginReplay, bind_ok, pure_ok] at hs
  obtain ⟨rm, -, ⟨σ2, k0, k1⟩, hsp, rfl⟩ := hs
  have h0 := h.unwait fun o => !rm.contains o
  have hm0 : MKeep σ { σ with waiting := σ.waiting.filter fun o => !rm.contains o } :=
    ⟨fun _ _ h => h, fun _ nd h => ⟨nd, h, rfl, rfl⟩, fun _ op h => ⟨op, h, rfl, rfl, rfl⟩⟩
  have hq0 : RepInv { σ with waiting := σ.waiting.filter fun o => !rm.contains o } := hq.keep hm0 rfl rfl
  generalize ({ σ with waiting := σ.waiting.filter fun o => !rm.contains o } : Core K) = τ at h0 hq0 hsp
  simp only [splitNode, bind_ok, needSome_ok, assert_ok, pure_ok, Prod.mk.injEq] at hsp
  obtain ⟨n, hn, _, -, st, hst, ⟨σ3, n0⟩, hn0, ⟨σ4, n1⟩, hn1, rfl, rfl, rfl⟩ := hsp
  have hpm : ∀ o ∈ n.parents, τ.pmode o = some st.mode := by
    intro o ho
    obtain ⟨i, a, b⟩ := h0.mode.nd nid n o hn ho
    rw [nmode_of hn, smode_of hst] at b
    cases b; exact a
  obtain ⟨a1, a2, a3, a4⟩ := makeNode_wit h0 hn0 (fun o ho => hpm o (List.mem_of_mem_take ho))
  have m1 := makeNode_mkeep hn0
  obtain ⟨b1, b2, b3, b4⟩ := makeNode_wit a1 hn1 (fun o ho => m1.pm (hpm o (List.mem_of_mem_drop ho)))
  have m2 := makeNode_mkeep hn1
  have m3 : MKeep σ4 { σ4 with queue := σ4.queue ++ [(nid, [n0, n1])] } :=
    ⟨fun _ _ h => h, fun _ nd h => ⟨nd, h, rfl, rfl⟩, fun _ op h => ⟨op, h, rfl, rfl, rfl⟩⟩
  have hk := (m1.trans m2).trans m3
  have hnid : σ4.nmode nid = some st.mode := (m1.trans m2).nm (by rw [nmode_of hn, smode_of hst])
  refine ⟨b1.queue hP _ σ4.rep, fun q hq' k hk' => ?_, fun r hr => ?_⟩
  · simp only [List.mem_append, List.mem_singleton] at hq'
    rcases hq' with hq' | rfl
    · exact (hq0.queue q (by rw [← a3, ← b3]; exact hq') k hk').keep hk
    · simp only [List.mem_cons, List.not_mem_nil, or_false] at hk'
      rcases hk' with rfl | rfl
      · exact ⟨st.mode, m3.nm hnid, m3.nm (m2.nm a2)⟩
      · exact ⟨st.mode, m3.nm hnid, m3.nm b2⟩
  · obtain ⟨c1, c2⟩ := hq0.rep r (by rw [← a4, ← b4]; exact hr)
    exact ⟨fun k hk' => (c1 k hk').keep hk, c2.keep hk⟩

theorem stepPop_qr {E : Env K} {σ σ' : Core K} (h : stepPop E σ = .ok σ') :
    σ'.queue = σ.queue ∧ σ'.rep = σ.rep := by
  simp only [stepPop, bind_ok, needSome_ok] at h
  obtain ⟨τ, hτ, c, hc, st, hst, m, hm, h⟩ := h
  have h1 : τ.queue = σ.queue ∧ τ.rep = σ.rep := by
    simp only [popWaiting, bind_ok, assert_ok, pure_ok] at hτ
    obtain ⟨items, hitems, l1, hl1, l, hl, _, -, at_, -, ⟨σ1, nid⟩, hn, rfl⟩ := hτ
    obtain ⟨ss, rts, sid, os, sts, rfl, -⟩ := makeNode_shape hn
    exact ⟨rfl, rfl⟩
  have tr : ∀ {a : Core K}, Milds true τ a → a.queue = σ.queue ∧ a.rep = σ.rep := fun hm =>
    ⟨hm.qr.1.trans h1.1, hm.qr.2.trans h1.2⟩
  split at h
  · exact tr (leftInvariant_mild h)
  · simp only [bind_ok] at h
    obtain ⟨⟨τ2, f⟩, h2, h⟩ := h
    simp only at h
    split at h
    · exact tr ((intersectCur_mild h2).trans (approxCur_mild h))
    · exact tr ((intersectCur_mild h2).trans (leftInvariant_mild h))

theorem doStep_wit {E : Env K} (hE : E.Base) (hids : E.ha.Ids) {P : Prop} (hP : P → E.Sound)
    (hd : P → ¬ E.deaggOn) {X0 : ℕ → (ℕ → K) → Prop} {σ σ' : Core K} (h : WitInv E P X0 σ)
    (hq : ¬ P → RepInv σ) (hs : doStep E σ = .ok σ') : WitInv E P X0 σ' ∧ (¬ P → RepInv σ') := by
  unfold doStep at hs
  split at hs
  · cases hs; exact ⟨h, hq⟩
  split at hs
  · refine ⟨stepPost_wit hE hids hP h hs, fun hp => ?_⟩
    have hm := stepPost_mild (all := true) hs
    exact (hq hp).keep hm.mkeep hm.qr.1 hm.qr.2
  have pop : ∀ {σ1 : Core K}, stepPop E σ = .ok σ1 →
      (if E.set.urgent && σ1.curState.isSome then checkGuards E σ1 else .ok σ1) = .ok σ' →
      WitInv E P X0 σ' ∧ (¬ P → RepInv σ') := by
    intro σ1 h1 h2
    refine ⟨pop_wit hE hids hP h h1 h2, fun hp => ?_⟩
    have a := stepPop_qr h1
    have b := (stepPop_micros h1).mkeep
    split at h2
    · have hm := checkGuards_mild (all := true) h2
      exact (hq hp).keep (b.trans hm.mkeep) (hm.qr.1.trans a.1) (hm.qr.2.trans a.2)
    · cases h2
      exact (hq hp).keep b a.1 a.2
  by_cases hp : P
  · split at hs
    · rename_i hdr
      unfold Core.doingReplay at hdr
      rw [(h.nr hp).1, (h.nr hp).2] at hdr; cases hdr
    · rw [getDeagg_off (hd hp)] at hs
      simp only [bind_ok] at hs
      obtain ⟨dg, hdg, hs⟩ := hs
      cases hdg
      simp only [bind_ok] at hs
      obtain ⟨σ1, h1, h2⟩ := hs
      exact pop h1 h2
  · split at hs
    · obtain ⟨a, b⟩ := stepReplay_wit hE hids hp h (hq hp) hs
      exact ⟨a, fun _ => b⟩
    · simp only [bind_ok] at hs
      obtain ⟨dg, hdg, hs⟩ := hs
      cases dg with
      | some n =>
        simp only [bind_ok] at hs
        obtain ⟨σ1, h1, h2⟩ := hs
        obtain ⟨a, b⟩ := beginReplay_wit hp h (hq hp) h1
        obtain ⟨a, b⟩ := stepReplay_wit hE hids hp a b h2
        exact ⟨a, fun _ => b⟩
      | none =>
        simp only [bind_ok] at hs
        obtain ⟨σ1, h1, h2⟩ := hs
        exact pop h1 h2

theorem runSteps_wit {E : Env K} (hE : E.Base) (hids : E.ha.Ids) {P : Prop} (hP : P → E.Sound)
    (hd : P → ¬ E.deaggOn) {X0 : ℕ → (ℕ → K) → Prop} : ∀ (n : ℕ) {σ σ' : Core K}, WitInv E P X0 σ →
    (¬ P → RepInv σ) → runSteps E n σ = .ok σ' → WitInv E P X0 σ'
  | 0, σ, σ', h, _, hs => by cases hs; exact h
  | n + 1, σ, σ', h, hq, hs => by
    simp only [runSteps, bind_ok] at hs
    obtain ⟨σ1, h1, h2⟩ := hs
    obtain ⟨a, b⟩ := doStep_wit hE hids hP hd h hq h1
    exact runSteps_wit hE hids hP hd n a b h2

end Hylaa
