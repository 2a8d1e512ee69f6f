import Verif.Proofs.Bound
import Verif.Props.Dag

/-!
# C34: the analysis stays within the time bound and terminates
-/

set_option linter.unusedSectionVars false

namespace Hylaa
variable {K : Type} [Field K] [LinearOrder K] [IsStrictOrderedRing K]

/-- No replay in progress. -/
def Core.NoReplay (σ : Core K) : Prop := σ.queue = [] ∧ σ.rep = none

theorem SameCtl.noReplay {σ σ' : Core K} (h : SameCtl σ σ') (hn : σ.NoReplay) : σ'.NoReplay :=
  ⟨h.2.1.trans hn.1, h.2.2.trans hn.2⟩

theorem NoReplay.not_doing {σ : Core K} (h : σ.NoReplay) : σ.doingReplay = false := by
  unfold Core.doingReplay; rw [h.1, h.2]; rfl

/-- What popping does to step counts. -/
theorem popWaiting_bound {E : Env K} {σ σ' : Core K} (h : popWaiting E σ = .ok σ') :
    Quiet σ σ' ∧ σ'.queue = σ.queue ∧ σ'.rep = σ.rep ∧
    ∃ nid nd st o op s0, σ'.cur = some nid ∧ σ'.nodes[nid]? = some nd ∧ σ'.states[nd.state]? = some st ∧
      o ∈ σ.waiting ∧ σ.ops[o]? = some op ∧ σ.states[op.post]? = some s0 ∧
      st.steps.1 = s0.steps.1 ∧ st.mode = s0.mode ∧
      ∃ p : ℕ → Bool, σ'.waiting = σ.waiting.filter p ∧ p o = false := by
  obtain ⟨ids', nd', hne, hsub, hpar, hwait, hnodes, hcur, hmodes⟩ := C36_pop h
  have h0 := h
  simp only [popWaiting, bind_ok, assert_ok, pure_ok] at h
  obtain ⟨items, hitems, l1, hl1, l, hl, _, -, at_, hat, ⟨σ1, nid⟩, hmk, rfl⟩ := h
  obtain ⟨q, c, w, e, nd, st, h1, h2, ⟨o, ho, op, s0, h3, h4, h5⟩, ⟨o', ho', op', s0', h3', h4', h5'⟩⟩ :=
    makeNode_bound hmk
  obtain ⟨ss, rts, sid, os, sts, e1, -⟩ := makeNode_shape hmk
  have hid : ids' = l.map fun w => w.oid := by
    rw [e1] at hnodes
    simp only at hnodes
    have := List.append_cancel_left hnodes
    simp only [List.cons.injEq, and_true] at this
    rw [← hpar, ← this]
  subst hid
  simp only at h1 h2 q c w hwait ⊢
  obtain ⟨op1, st1, m, a1, a2, a3, -, -, a4⟩ := hmodes o ho
  rw [h3] at a1; cases a1
  rw [h4] at a2; cases a2
  have hm : s0'.mode = s0.mode := a4 o' ho' op' s0' h3' h4'
  refine ⟨q.of_eq rfl rfl rfl rfl rfl rfl, c.2.1, c.2.2, nid, nd, st, o, op, s0, rfl, h1, h2,
    hsub.subset ho, h3, h4, h5, h5'.trans hm, _, hwait, ?_⟩
  exact decide_eq_false (fun hc => hc ho)

/-- Every state set's step count (the least number of steps along its paths, C38) is within the bound. -/
def Core.InTime (N : ℕ) (σ : Core K) : Prop := ∀ st ∈ σ.states, st.steps.1 ≤ N

theorem Quiet.inTime {N : ℕ} {σ σ' : Core K} (h : Quiet σ σ') (ht : σ.InTime N) : σ'.InTime N := by
  intro st hs
  obtain ⟨s0, h1, h2⟩ := h.back st hs
  rw [h2]; exact ht s0 h1

theorem checkGuards_bound {E : Env K} {σ σ' : Core K} {c : ℕ × ℕ} {st : SS K} (hc : σ.curState = some c)
    (hst : σ.states[c.2]? = some st) (h : checkGuards E σ = .ok σ') :
    ∃ ts, E.ha.out[st.mode]? = some ts ∧ Quiet σ σ' ∧ SameCtl σ σ' ∧
      Grew ts.length (fun s => (∃ ti ∈ ts, ∃ t, E.ha.trans[ti]? = some t ∧ s.mode = t.dst) ∧
        s.steps.1 = st.steps.1) σ σ' := by
  simp only [checkGuards, bind_ok, needSome_ok] at h
  obtain ⟨c', hc', st', hst', ts, hts, h⟩ := h
  rw [hc] at hc'; cases hc'
  rw [hst] at hst'; cases hst'
  exact ⟨ts, hts, guardLoop_bound ts hst h⟩

/-- The current node and set stay the same when only step counts, labels and lists change. -/
theorem curState_same {σ σ' : Core K} {c c' : ℕ × ℕ} (hc : σ.curState = some c)
    (hcur : σ'.cur = σ.cur)
    (hn : ∀ (k : ℕ) (n : Node), σ.nodes[k]? = some n → ∃ n', σ'.nodes[k]? = some n' ∧ n'.state = n.state)
    (hc' : σ'.curState = some c') : c' = c := by
  obtain ⟨h1, nd, h2, h3, -⟩ := curState_inv hc
  obtain ⟨h1', nd', h2', h3', -⟩ := curState_inv hc'
  rw [hcur, h1] at h1'
  have e1 : c.1 = c'.1 := Option.some.inj h1'
  obtain ⟨n'', h4, h5⟩ := hn _ _ h2
  rw [e1, h2'] at h4; cases h4
  exact Prod.ext e1.symm (by rw [← h3', h5, h3])

/-- The three ways a round of continuous post goes. -/
theorem stepPost_bound {E : Env K} {σ σ' : Core K} (h : stepPost E σ = .ok σ')
    (hf : σ.isFinished E = false) :
    ∃ c st, σ.curState = some c ∧ σ.states[c.2]? = some st ∧
    ((Quiet σ σ' ∧ σ'.waiting = σ.waiting ∧ σ'.cur = none ∧ σ'.queue = σ.queue ∧ σ'.rep = σ.rep) ∨
     (st.steps.1 < E.set.numSteps ∧ ∃ σ1 σ2 σ3 st1 st2, Quiet σ σ1 ∧ σ1.states[c.2]? = some st1 ∧
        st1.mode = st.mode ∧ st1.steps.1 = st.steps.1 ∧ σ2.states = σ1.states.set c.2 st2 ∧
        st2.mode = st.mode ∧ st2.steps.1 = st.steps.1 + 1 ∧ σ2.ops = σ1.ops ∧ σ2.nodes = σ1.nodes ∧
        σ2.waiting = σ.waiting ∧ Quiet σ2 σ3 ∧ σ3.queue = σ.queue ∧ σ3.rep = σ.rep ∧ σ3.cur = σ.cur ∧
        (∃ ts, E.ha.out[st.mode]? = some ts ∧
          Grew ts.length (fun s => (∃ ti ∈ ts, ∃ t, E.ha.trans[ti]? = some t ∧ s.mode = t.dst) ∧
            s.steps.1 = st.steps.1 + 1) σ2 σ3) ∧
        (σ' = σ3 ∨ (Quiet σ3 σ' ∧ σ'.waiting = σ3.waiting ∧ σ'.cur = none ∧ σ'.queue = σ3.queue ∧
          σ'.rep = σ3.rep)))) := by
  simp only [stepPost, bind_ok, needSome_ok] at h
  obtain ⟨c, hc, st, hst, h⟩ := h
  refine ⟨c, st, hc, hst, ?_⟩
  rw [hf] at h
  simp only [Bool.false_eq_true, if_false] at h
  split at h
  · exact .inl (leftInvariant_bound h)
  rename_i hN
  split at h
  · obtain ⟨a1, a2, a3, a4, a5⟩ := leftInvariant_bound h
    exact .inl ⟨a1.of_eq rfl rfl rfl rfl rfl rfl, a2, a3, a4, a5⟩
  simp only [bind_ok] at h
  obtain ⟨⟨σ1, f⟩, h1, h⟩ := h
  obtain ⟨q1, k1, w1⟩ := intersectCur_bound h1
  simp only at h
  split at h
  · obtain ⟨a1, a2, a3, a4, a5⟩ := leftInvariant_bound h
    exact .inl ⟨q1.trans a1, a2.trans w1, a3, a4.trans k1.2.1, a5.trans k1.2.2⟩
  simp only [bind_ok, needSome_ok] at h
  obtain ⟨σ2, h2, σ3, h3, m, -, a, -, h⟩ := h
  obtain ⟨st1, d1, d2, d3⟩ := q1.fwd _ _ hst
  obtain ⟨st2, e1, e2, e3, e4, e5, e6, e7⟩ := stepState_bound d1 h2
  have hs2 : σ2.states[c.2]? = some st2 := by rw [e1]; exact List.getElem?_set_self (lt_of_getElem? d1)
  have hc2 : σ2.curState = some c := by
    simp only [checkGuards, bind_ok, needSome_ok] at h3
    obtain ⟨c', hc', -⟩ := h3
    have := curState_same hc (e7.1.trans k1.1) (by rw [e5]; exact q1.node) hc'
    rw [hc', this]
  obtain ⟨ts, g1, g2, g3, g4⟩ := checkGuards_bound hc2 hs2 h3
  refine .inr ⟨by omega, σ1, σ2, σ3, st1, st2, q1, d1, d2, d3, e1, e2.trans d2, by rw [e3, d3], e4, e5,
    e6.trans w1, g2, (g3.2.1.trans e7.2.1).trans k1.2.1, (g3.2.2.trans e7.2.2).trans k1.2.2,
    (g3.1.trans e7.1).trans k1.1, ⟨ts, by rw [← d2, ← e2]; exact g1, ?_⟩, ?_⟩
  · refine Grew.mono g4 le_rfl fun s hs => ⟨hs.1, ?_⟩
    rw [hs.2, e3, d3]
  · split at h
    · exact .inr (leftInvariant_bound h)
    · cases h; exact .inl rfl

/-! ### The time bound -/

theorem stepPost_inTime {E : Env K} {σ σ' : Core K} (h : stepPost E σ = .ok σ')
    (hf : σ.isFinished E = false) (ht : σ.InTime E.set.numSteps) (hn : σ.NoReplay) :
    σ'.InTime E.set.numSteps ∧ σ'.NoReplay := by
  obtain ⟨c, st, hc, hst, h | h⟩ := stepPost_bound h hf
  · exact ⟨h.1.inTime ht, h.2.2.2.1.trans hn.1, h.2.2.2.2.trans hn.2⟩
  · obtain ⟨hlt, σ1, σ2, σ3, st1, st2, q1, -, -, -, e1, -, e3, -, -, -, q2, k1, k2, -, -, h⟩ := h
    have t2 : σ2.InTime E.set.numSteps := by
      intro s hs
      rw [e1] at hs
      rcases List.mem_or_eq_of_mem_set hs with hm | rfl
      · exact q1.inTime ht s hm
      · rw [e3]; omega
    have t3 := q2.inTime t2
    rcases h with rfl | ⟨q3, -, -, k3, k4⟩
    · exact ⟨t3, k1.trans hn.1, k2.trans hn.2⟩
    · exact ⟨q3.inTime t3, (k3.trans k1).trans hn.1, (k4.trans k2).trans hn.2⟩

theorem stepPop_bound {E : Env K} {σ σ' : Core K} (h : stepPop E σ = .ok σ') :
    ∃ σ1, popWaiting E σ = .ok σ1 ∧ Quiet σ1 σ' ∧ σ'.waiting = σ1.waiting ∧ σ'.queue = σ1.queue ∧
      σ'.rep = σ1.rep ∧ (σ'.cur = σ1.cur ∨ σ'.cur = none) := by
  simp only [stepPop, bind_ok, needSome_ok] at h
  obtain ⟨σ1, h1, c, -, st, -, m, -, h⟩ := h
  refine ⟨σ1, h1, ?_⟩
  split at h
  · obtain ⟨a1, a2, a3, a4, a5⟩ := leftInvariant_bound h
    exact ⟨a1, a2, a4, a5, .inr a3⟩
  · simp only [bind_ok] at h
    obtain ⟨⟨σ2, f⟩, h2, h⟩ := h
    obtain ⟨q1, k1, w1⟩ := intersectCur_bound h2
    simp only at h
    split at h
    · obtain ⟨a1, a2, a3, a4, a5⟩ := approxCur_bound h
      exact ⟨q1.trans a1, a2.trans w1, a4.trans k1.2.1, a5.trans k1.2.2, .inl (a3.trans k1.1)⟩
    · obtain ⟨a1, a2, a3, a4, a5⟩ := leftInvariant_bound h
      exact ⟨q1.trans a1, a2.trans w1, a4.trans k1.2.1, a5.trans k1.2.2, .inr a3⟩

theorem doStep_inTime {E : Env K} (hd : ¬ E.deaggOn) {σ σ' : Core K} (h : doStep E σ = .ok σ')
    (ht : σ.InTime E.set.numSteps) (hn : σ.NoReplay) : σ'.InTime E.set.numSteps ∧ σ'.NoReplay := by
  unfold doStep at h
  split at h
  · cases h; exact ⟨ht, hn⟩
  rename_i hf
  split at h
  · exact stepPost_inTime h (by simpa using hf) ht hn
  rw [NoReplay.not_doing hn, getDeagg_off hd] at h
  simp only [Bool.false_eq_true, if_false, bind_ok, Except.ok.injEq] at h
  obtain ⟨d, rfl, h⟩ := h
  simp only [bind_ok] at h
  obtain ⟨σ1, h1, h⟩ := h
  obtain ⟨σ0, h0, q, -, k1, k2, -⟩ := stepPop_bound h1
  obtain ⟨q0, j1, j2, -⟩ := popWaiting_bound h0
  have t1 := q.inTime (q0.inTime ht)
  have n1 : σ1.NoReplay := ⟨(k1.trans j1).trans hn.1, (k2.trans j2).trans hn.2⟩
  split at h
  · simp only [checkGuards, bind_ok, needSome_ok] at h
    obtain ⟨c, hc, st, hst, ts, -, h⟩ := h
    obtain ⟨g1, g2, -⟩ := guardLoop_bound ts hst h
    exact ⟨g1.inTime t1, g2.noReplay n1⟩
  · cases h; exact ⟨t1, n1⟩

theorem runSteps_inTime {E : Env K} (hd : ¬ E.deaggOn) : ∀ (n : ℕ) {σ σ' : Core K},
    runSteps E n σ = .ok σ' → σ.InTime E.set.numSteps → σ.NoReplay →
    σ'.InTime E.set.numSteps ∧ σ'.NoReplay
  | 0, σ, σ', h, ht, hn => by cases h; exact ⟨ht, hn⟩
  | n + 1, σ, σ', h, ht, hn => by
    simp only [runSteps, bind_ok] at h
    obtain ⟨σ1, h1, h⟩ := h
    obtain ⟨a, b⟩ := doStep_inTime hd h1 ht hn
    exact runSteps_inTime hd n h a b

theorem setupStates_inTime {E : Env K} {N : ℕ} : ∀ (l : List (SS K)) {σ σ' : Core K},
    setupStates E σ l = .ok σ' → (∀ st ∈ l, st.steps.1 ≤ N) → σ.InTime N → σ.NoReplay → σ.cur = none →
    σ'.InTime N ∧ σ'.NoReplay ∧ σ'.cur = none
  | [], σ, σ', h, _, ht, hn, hc => by cases h; exact ⟨ht, hn, hc⟩
  | st :: l, σ, σ', h, hl, ht, hn, hc => by
    simp only [setupStates, bind_ok, needSome_ok] at h
    obtain ⟨m, -, f, -, h⟩ := h
    have hl' : ∀ s ∈ l, s.steps.1 ≤ N := fun s hs => hl s (List.mem_cons_of_mem _ hs)
    split at h
    · exact setupStates_inTime l h hl' ht hn hc
    simp only [bind_ok] at h
    obtain ⟨⟨st1, b, ops⟩, h1, h⟩ := h
    have e := invLoop_like _ h1
    simp only at h
    split at h
    · exact setupStates_inTime l h hl' ht hn hc
    · refine setupStates_inTime l h hl' ?_ hn hc
      intro s hs
      rcases List.mem_append.1 hs with hs | hs
      · exact ht s hs
      · rw [List.mem_singleton] at hs
        subst hs
        simp only
        rw [e]
        exact hl st List.mem_cons_self

theorem setup_inTime {E : Env K} {init : List (SS K)} {N : ℕ} {σ : Core K} (h : setup E init = .ok σ)
    (hl : ∀ st ∈ init, st.steps.1 ≤ N) : σ.InTime N ∧ σ.NoReplay ∧ σ.cur = none := by
  simp only [setup, bind_ok, assert_ok, need_ok, pure_ok] at h
  obtain ⟨_, -, σ1, h1, _, -, rfl⟩ := h
  exact setupStates_inTime init h1 hl (fun st hs => by simp at hs) ⟨rfl, rfl⟩ rfl

/-- **The time bound** (without deaggregation): at any moment of any analysis no state set has been
propagated for more than `num_steps` steps along its shortest path. -/
theorem C34_time_bound_partial {E : Env K} (hd : ¬ E.deaggOn) {init : List (SS K)}
    (hl : ∀ st ∈ init, st.steps = (0, 0)) {σ0 σ : Core K} (h0 : setup E init = .ok σ0) {n : ℕ}
    (h : runSteps E n σ0 = .ok σ) : ∀ st ∈ σ.states, st.steps.1 ≤ E.set.numSteps := by
  obtain ⟨a, b, -⟩ := setup_inTime (N := E.set.numSteps) h0 (fun st hs => by rw [hl st hs]; exact Nat.zero_le _)
  exact (runSteps_inTime hd n h a b).1

/-! ### Termination -/

/-- Weight of a waiting operation whose set, once popped, weighs `v`, in a mode of rank `ρ`. -/
def waitW (D v : ℕ) : ℕ → ℕ
  | 0 => 1 + v
  | ρ + 1 => 1 + v + D * waitW D v ρ

/-- Weight of a current set with `r` steps left. -/
def curW (D R : ℕ) : ℕ → ℕ
  | 0 => 1
  | r + 1 => 1 + curW D R r + D * waitW D (curW D R r) R

theorem waitW_mono_v (D : ℕ) {v w : ℕ} (h : v ≤ w) : ∀ ρ, waitW D v ρ ≤ waitW D w ρ
  | 0 => by simp only [waitW]; omega
  | ρ + 1 => by
    simp only [waitW]
    have := Nat.mul_le_mul_left D (waitW_mono_v D h ρ)
    omega

theorem waitW_succ (D v : ℕ) : ∀ ρ, waitW D v ρ ≤ waitW D v (ρ + 1)
  | 0 => by simp only [waitW]; omega
  | ρ + 1 => by
    have := Nat.mul_le_mul_left D (waitW_succ D v ρ)
    simp only [waitW] at this ⊢
    omega

theorem waitW_mono (D : ℕ) {v w ρ τ : ℕ} (h : v ≤ w) (h' : ρ ≤ τ) : waitW D v ρ ≤ waitW D w τ :=
  (waitW_mono_v D h ρ).trans (monotone_nat_of_le_succ (waitW_succ D w) h')

theorem curW_mono (D R : ℕ) {r s : ℕ} (h : r ≤ s) : curW D R r ≤ curW D R s :=
  monotone_nat_of_le_succ (fun r => by simp only [curW]; omega) h

theorem curW_pos (D R r : ℕ) : 1 ≤ curW D R r := by
  cases r <;> simp only [curW] <;> omega

theorem lt_waitW (D v ρ : ℕ) : v < waitW D v ρ := by
  cases ρ <;> simp only [waitW] <;> omega

/-- Parameters of the weights: bound on steps, number of outgoing transitions, ranks. -/
structure Wt where
  N : ℕ
  D : ℕ
  R : ℕ
  ρ : ℕ → ℕ

variable (w : Wt)

/-- Weight of a waiting operation. -/
def Wt.op (σ : Core K) (o : ℕ) : ℕ :=
  match σ.ops[o]? with
  | none => waitW w.D (curW w.D w.R w.N) w.R
  | some op => match σ.states[op.post]? with
    | none => waitW w.D (curW w.D w.R w.N) w.R
    | some st => waitW w.D (curW w.D w.R (w.N - st.steps.1)) (w.ρ st.mode)

/-- Weight of the current set. -/
def Wt.cur (σ : Core K) : ℕ :=
  match σ.curState with
  | none => 0
  | some c => match σ.states[c.2]? with
    | none => curW w.D w.R w.N
    | some st => curW w.D w.R (w.N - st.steps.1)

/-- Total weight. -/
def Wt.total (σ : Core K) : ℕ := (σ.waiting.map (w.op σ)).sum + w.cur σ

/-- Sets only advance, operations keep theirs. -/
structure Adv (σ σ' : Core K) : Prop where
  fwd : ∀ (k : ℕ) (st : SS K), σ.states[k]? = some st →
    ∃ st', σ'.states[k]? = some st' ∧ st'.mode = st.mode ∧ st.steps.1 ≤ st'.steps.1
  op : ∀ (o : ℕ) (op : OpTr K), σ.ops[o]? = some op → ∃ op', σ'.ops[o]? = some op' ∧ op'.post = op.post

theorem Quiet.adv {σ σ' : Core K} (h : Quiet σ σ') : Adv σ σ' := by
  refine ⟨fun k st hk => ?_, h.op⟩
  obtain ⟨st', a, b, c⟩ := h.fwd k st hk
  exact ⟨st', a, b, c.ge⟩

theorem Adv.trans {σ τ υ : Core K} (h : Adv σ τ) (g : Adv τ υ) : Adv σ υ := by
  refine ⟨fun k st hk => ?_, fun o op ho => ?_⟩
  · obtain ⟨a, h1, h2, h3⟩ := h.fwd k st hk
    obtain ⟨b, g1, g2, g3⟩ := g.fwd k a h1
    exact ⟨b, g1, g2.trans h2, h3.trans g3⟩
  · obtain ⟨a, h1, h2⟩ := h.op o op ho
    obtain ⟨b, g1, g2⟩ := g.op o a h1
    exact ⟨b, g1, g2.trans h2⟩

theorem Wt.op_le_top (hρ : ∀ i, w.ρ i ≤ w.R) (σ : Core K) (o : ℕ) :
    w.op σ o ≤ waitW w.D (curW w.D w.R w.N) w.R := by
  unfold Wt.op
  split
  · exact le_rfl
  · split
    · exact le_rfl
    · exact waitW_mono _ (curW_mono _ _ (Nat.sub_le _ _)) (hρ _)

theorem Wt.op_adv (hρ : ∀ i, w.ρ i ≤ w.R) {σ σ' : Core K} (h : Adv σ σ') (o : ℕ) :
    w.op σ' o ≤ w.op σ o := by
  cases ho : σ.ops[o]? with
  | none =>
    have : w.op σ o = waitW w.D (curW w.D w.R w.N) w.R := by unfold Wt.op; rw [ho]
    rw [this]; exact w.op_le_top hρ σ' o
  | some op =>
    cases hs : σ.states[op.post]? with
    | none =>
      have : w.op σ o = waitW w.D (curW w.D w.R w.N) w.R := by unfold Wt.op; rw [ho]; simp only; rw [hs]
      rw [this]; exact w.op_le_top hρ σ' o
    | some st =>
      obtain ⟨op', a1, a2⟩ := h.op o op ho
      obtain ⟨st', b1, b2, b3⟩ := h.fwd _ _ hs
      unfold Wt.op
      rw [ho, a1]
      simp only
      rw [hs, a2, b1]
      simp only
      rw [b2]
      exact waitW_mono _ (curW_mono _ _ (by omega)) le_rfl

theorem sum_map_le {f g : ℕ → ℕ} (h : ∀ o, f o ≤ g o) : ∀ l : List ℕ, (l.map f).sum ≤ (l.map g).sum
  | [] => le_rfl
  | a :: l => by
    simp only [List.map_cons, List.sum_cons]
    exact Nat.add_le_add (h a) (sum_map_le h l)

theorem sum_map_bound {f : ℕ → ℕ} {b : ℕ} : ∀ (l : List ℕ), (∀ o ∈ l, f o ≤ b) → (l.map f).sum ≤ l.length * b
  | [], _ => by simp
  | a :: l, h => by
    simp only [List.map_cons, List.sum_cons, List.length_cons]
    have := sum_map_bound l fun o ho => h o (List.mem_cons_of_mem _ ho)
    have := h a List.mem_cons_self
    rw [Nat.succ_mul]; omega

theorem sum_filter_add {f : ℕ → ℕ} {p : ℕ → Bool} {o : ℕ} (hp : p o = false) : ∀ {l : List ℕ}, o ∈ l →
    ((l.filter p).map f).sum + f o ≤ (l.map f).sum
  | a :: l, h => by
    have hle : ∀ l : List ℕ, ((l.filter p).map f).sum ≤ (l.map f).sum := by
      intro l
      induction l with
      | nil => simp
      | cons a l ih =>
        rw [List.filter_cons]
        split
        · simp only [List.map_cons, List.sum_cons]; omega
        · simp only [List.map_cons, List.sum_cons]; omega
    rcases List.mem_cons.1 h with rfl | h
    · rw [List.filter_cons, hp]
      simp only [Bool.false_eq_true, if_false, List.map_cons, List.sum_cons]
      have := hle l
      omega
    · have := sum_filter_add (f := f) hp h
      rw [List.filter_cons]
      split
      · simp only [List.map_cons, List.sum_cons]; omega
      · simp only [List.map_cons, List.sum_cons]; omega

theorem Wt.cur_none {σ : Core K} (h : σ.cur = none) : w.cur σ = 0 := by
  unfold Wt.cur Core.curState; rw [h]

theorem Wt.cur_some {σ : Core K} {c : ℕ × ℕ} {st : SS K} (h : σ.curState = some c)
    (hs : σ.states[c.2]? = some st) : w.cur σ = curW w.D w.R (w.N - st.steps.1) := by
  unfold Wt.cur; rw [h]; simp only; rw [hs]

/-- The current set weighs at most as much as the set of the current node. -/
theorem Wt.cur_le {σ : Core K} {nid : ℕ} {nd : Node} {st : SS K} (h : σ.cur = some nid)
    (hn : σ.nodes[nid]? = some nd) (hs : σ.states[nd.state]? = some st) :
    w.cur σ ≤ curW w.D w.R (w.N - st.steps.1) := by
  cases hc : σ.curState with
  | none => unfold Wt.cur; rw [hc]; exact Nat.zero_le _
  | some c =>
    obtain ⟨h1, nd', h2, h3, -⟩ := curState_inv hc
    rw [h] at h1
    have e : nid = c.1 := Option.some.inj h1
    rw [← e, hn] at h2; cases h2
    rw [w.cur_some hc (by rw [← h3]; exact hs)]

/-- The new operations weigh at most `k` times the weight of one. -/
theorem Wt.grew {k b : ℕ} {P : SS K → Prop} {σ σ' : Core K} (h : Grew k P σ σ')
    (hP : ∀ s, P s → waitW w.D (curW w.D w.R (w.N - s.steps.1)) (w.ρ s.mode) ≤ b) :
    (σ'.waiting.map (w.op σ')).sum ≤ (σ.waiting.map (w.op σ')).sum + k * b := by
  obtain ⟨l, e, hl, hs⟩ := h
  rw [e, List.map_append, List.sum_append]
  refine Nat.add_le_add_left ?_ _
  refine (sum_map_bound l ?_).trans (Nat.mul_le_mul_right _ hl)
  intro o ho
  obtain ⟨op, st, h1, h2, h3⟩ := hs o ho
  have : w.op σ' o = waitW w.D (curW w.D w.R (w.N - st.steps.1)) (w.ρ st.mode) := by
    unfold Wt.op; rw [h1]; simp only; rw [h2]
  rw [this]
  exact hP st h3

/-- The weights fit the automaton: enough steps and transitions, and with urgent transitions the rank
goes down along every transition. -/
structure Wt.Fits (E : Env K) : Prop where
  steps : w.N = E.set.numSteps
  out : ∀ (i : ℕ) (l : List ℕ), E.ha.out[i]? = some l → l.length ≤ w.D
  rank : ∀ i, w.ρ i ≤ w.R
  urgent : E.set.urgent = true → ∀ (i : ℕ) (l : List ℕ), E.ha.out[i]? = some l → ∀ ti ∈ l, ∀ t : Tr K,
    E.ha.trans[ti]? = some t → w.ρ t.dst < w.ρ i

theorem stepPost_weight {E : Env K} (hw : w.Fits E) {σ σ' : Core K} (h : stepPost E σ = .ok σ')
    (hf : σ.isFinished E = false) : w.total σ' < w.total σ := by
  obtain ⟨c, st, hc, hst, h⟩ := stepPost_bound h hf
  have e0 := w.cur_some hc hst
  rcases h with ⟨q, hwt, hcur, -, -⟩ | ⟨hlt, σ1, σ2, σ3, st1, st2, q1, d1, d2, d3, e1, e2, e3, e4, e5, e6, q2, k1, k2, k3, ⟨ts, hts, hg⟩, h⟩
  · unfold Wt.total
    rw [hwt, w.cur_none hcur, e0]
    have := sum_map_le (w.op_adv hw.rank q.adv) σ.waiting
    have := curW_pos w.D w.R (w.N - st.steps.1)
    omega
  · have hadv12 : Adv σ1 σ2 := by
      refine ⟨fun k s hk => ?_, fun o op ho => ⟨op, by rw [e4]; exact ho, rfl⟩⟩
      by_cases hkc : c.2 = k
      · subst hkc
        rw [d1] at hk; cases hk
        exact ⟨st2, by rw [e1]; exact List.getElem?_set_self (lt_of_getElem? d1), e2.trans d2.symm, by omega⟩
      · exact ⟨s, by rw [e1, List.getElem?_set_ne hkc]; exact hk, rfl, le_rfl⟩
    have hadv : Adv σ σ3 := (q1.adv.trans hadv12).trans q2.adv
    have key : w.total σ3 < w.total σ := by
      obtain ⟨r, hr⟩ : ∃ r, w.N - st.steps.1 = r + 1 := ⟨w.N - st.steps.1 - 1, by rw [hw.steps]; omega⟩
      have hr' : w.N - (st.steps.1 + 1) = r := by omega
      have g := w.grew hg (b := waitW w.D (curW w.D w.R r) w.R) (fun s hs => by
        rw [hs.2, hr']; exact waitW_mono _ le_rfl (hw.rank _))
      have hcw : w.cur σ3 ≤ curW w.D w.R r := by
        obtain ⟨h1, nd, h2, h3, -⟩ := curState_inv hc
        obtain ⟨nd1, n1, n2⟩ := q1.node _ _ h2
        obtain ⟨nd3, n3, n4⟩ := q2.node _ nd1 (by rw [e5]; exact n1)
        have hs2 : σ2.states[c.2]? = some st2 := by rw [e1]; exact List.getElem?_set_self (lt_of_getElem? d1)
        obtain ⟨st3, f1, -, f3⟩ := q2.fwd _ _ hs2
        have := w.cur_le (k3.trans h1) n3 (st := st3) (by rw [n4, n2, h3]; exact f1)
        rw [f3, e3, hr'] at this
        exact this
      have s1 := sum_map_le (w.op_adv hw.rank hadv) σ.waiting
      have hD := Nat.mul_le_mul_right (waitW w.D (curW w.D w.R r) w.R) (hw.out _ _ hts)
      rw [e6] at g
      unfold Wt.total
      rw [e0, hr]
      simp only [curW]
      omega
    rcases h with rfl | ⟨q3, h1, h2, -, -⟩
    · exact key
    · refine lt_of_le_of_lt ?_ key
      unfold Wt.total
      rw [h1, w.cur_none h2]
      have := sum_map_le (w.op_adv hw.rank q3.adv) σ3.waiting
      omega

/-- Each round of the main loop decreases the weight. -/
theorem doStep_weight {E : Env K} (hd : ¬ E.deaggOn) (hw : w.Fits E) {σ σ' : Core K}
    (h : doStep E σ = .ok σ') (hn : σ.NoReplay) (hf : σ.isFinished E = false) :
    w.total σ' < w.total σ := by
  unfold doStep at h
  rw [hf] at h
  simp only [Bool.false_eq_true, if_false] at h
  split at h
  · exact stepPost_weight w hw h hf
  rename_i hcs
  rw [NoReplay.not_doing hn, getDeagg_off hd] at h
  simp only [Bool.false_eq_true, if_false, bind_ok, Except.ok.injEq] at h
  obtain ⟨d, rfl, h⟩ := h
  simp only [bind_ok] at h
  obtain ⟨σ2, h2, h⟩ := h
  obtain ⟨σ1, h1, q2, w2, -, -, c2⟩ := stepPop_bound h2
  obtain ⟨q1, -, -, nid, nd, st, o, op, s0, a1, a2, a3, a4, a5, a6, a7, a8, p, a9, a10⟩ := popWaiting_bound h1
  have e0 : w.op σ o = waitW w.D (curW w.D w.R (w.N - st.steps.1)) (w.ρ st.mode) := by
    unfold Wt.op; rw [a5]; simp only; rw [a6]; simp only; rw [a7, a8]
  have hsum := sum_filter_add (f := w.op σ) a10 a4
  have hcur0 : w.cur σ = 0 := by
    unfold Wt.cur
    cases hx : σ.curState with
    | none => rfl
    | some c => rw [hx] at hcs; simp at hcs
  obtain ⟨nd2, b1, b2⟩ := q2.node _ _ a2
  obtain ⟨st2, b3, b4, b5⟩ := q2.fwd _ _ a3
  have hle : ∀ τ : Core K, Quiet σ2 τ → τ.cur = σ2.cur → w.cur τ ≤ curW w.D w.R (w.N - st.steps.1) := by
    intro τ q hτ
    rcases c2 with hc | hc
    · obtain ⟨nd3, n1, n2⟩ := q.node _ _ b1
      obtain ⟨st3, f1, -, f3⟩ := q.fwd _ _ b3
      have := w.cur_le (hτ.trans (hc.trans a1)) n1 (st := st3) (by rw [n2, b2]; exact f1)
      rwa [f3, b5] at this
    · rw [w.cur_none (hτ.trans hc)]; exact Nat.zero_le _
  split at h
  · rename_i hu
    simp only [Bool.and_eq_true] at hu
    have h' := h
    simp only [checkGuards, bind_ok, needSome_ok] at h'
    obtain ⟨c, hc, stc, hstc, -⟩ := h'
    obtain ⟨ts, g1, g2, g3, g4⟩ := checkGuards_bound hc hstc h
    -- the popped set is the current one
    obtain ⟨i1, nd', i2, i3, -⟩ := curState_inv hc
    have hcn : nid = c.1 := by
      rcases c2 with hcc | hcc
      · rw [hcc, a1] at i1; exact Option.some.inj i1
      · rw [hcc] at i1; cases i1
    rw [← hcn, b1] at i2; cases i2
    have hstc' : stc = st2 := by
      rw [← i3, b2, b3] at hstc; exact (Option.some.inj hstc).symm
    subst hstc'
    have hpos : ∀ ti ∈ ts, ∀ t : Tr K, E.ha.trans[ti]? = some t → w.ρ t.dst < w.ρ stc.mode :=
      fun ti hti t ht => hw.urgent hu.1 _ _ g1 ti hti t ht
    have hadv : Adv σ σ' := (q1.adv.trans q2.adv).trans g2.adv
    have s1 := sum_map_le (w.op_adv hw.rank hadv) (σ.waiting.filter p)
    have hcw := hle σ' g2 g3.1
    rw [b4] at hpos
    have g := w.grew g4 (b := waitW w.D (curW w.D w.R (w.N - st.steps.1)) (w.ρ st.mode - 1)) (by
      rintro s ⟨⟨ti, hti, t, ht, hm⟩, hs⟩
      rw [hs, b5]
      refine waitW_mono _ le_rfl ?_
      rw [hm]
      have := hpos ti hti t ht
      omega)
    rw [w2, a9] at g
    have hD := Nat.mul_le_mul_right (waitW w.D (curW w.D w.R (w.N - st.steps.1)) (w.ρ st.mode - 1)) (hw.out _ _ g1)
    unfold Wt.total
    rw [hcur0]
    rw [e0] at hsum
    have hlt := lt_waitW w.D (curW w.D w.R (w.N - st.steps.1)) (w.ρ st.mode)
    rcases ts with _ | ⟨t0, ts'⟩
    · simp only [List.length_nil, Nat.zero_mul, Nat.add_zero] at g
      omega
    · -- the rank of the mode is positive
      by_cases hz : w.ρ st.mode = 0
      · exfalso
        have hgl := h
        simp only [checkGuards, bind_ok, needSome_ok] at hgl
        obtain ⟨c', hc', st', hst', ts1, hts1, hgl⟩ := hgl
        rw [hc] at hc'; cases hc'
        rw [hstc] at hst'; cases hst'
        rw [g1] at hts1; cases hts1
        simp only [guardLoop, bind_ok, needSome_ok] at hgl
        obtain ⟨_, -, t, ht, -⟩ := hgl
        have := hpos t0 List.mem_cons_self t ht
        omega
      · obtain ⟨ρ', hρ'⟩ : ∃ ρ', w.ρ st.mode = ρ' + 1 := ⟨w.ρ st.mode - 1, by omega⟩
        rw [hρ'] at hsum g hD
        simp only [Nat.add_sub_cancel, waitW] at hsum g hD
        omega
  · cases h
    have hadv : Adv σ σ' := q1.adv.trans q2.adv
    have s1 := sum_map_le (w.op_adv hw.rank hadv) (σ.waiting.filter p)
    have hcw := hle σ' (Quiet.refl _) rfl
    have hlt := lt_waitW w.D (curW w.D w.R (w.N - st.steps.1)) (w.ρ st.mode)
    unfold Wt.total
    rw [hcur0, w2, a9]
    rw [e0] at hsum
    omega

theorem doStep_finished {E : Env K} {σ : Core K} (h : σ.isFinished E = true) : doStep E σ = .ok σ := by
  unfold doStep; rw [h]; rfl

theorem runSteps_finishes {E : Env K} (hd : ¬ E.deaggOn) (hw : w.Fits E) : ∀ (n : ℕ) {σ σ' : Core K},
    runSteps E n σ = .ok σ' → σ.NoReplay → σ.InTime E.set.numSteps → w.total σ ≤ n → σ'.isFinished E = true
  | 0, σ, σ', h, hn, _, hb => by
    cases h
    by_contra hf
    have hf : σ.isFinished E = false := by simpa using hf
    unfold Wt.total at hb
    have hz : w.cur σ = 0 := by omega
    have hz' : (σ.waiting.map (w.op σ)).sum = 0 := by omega
    have hc : σ.curState = none := by
      cases hx : σ.curState with
      | none => rfl
      | some c =>
        unfold Wt.cur at hz
        rw [hx] at hz
        simp only at hz
        split at hz
        · have := curW_pos w.D w.R w.N; omega
        · rename_i st _
          have := curW_pos w.D w.R (w.N - st.steps.1); omega
    have hwt : σ.waiting = [] := by
      cases hx : σ.waiting with
      | nil => rfl
      | cons o l =>
        rw [hx] at hz'
        simp only [List.map_cons, List.sum_cons] at hz'
        have h0 : w.op σ o = 0 := by omega
        unfold Wt.op at h0
        split at h0
        · have := lt_waitW w.D (curW w.D w.R w.N) w.R; omega
        · split at h0
          · have := lt_waitW w.D (curW w.D w.R w.N) w.R; omega
          · rename_i st _
            have := lt_waitW w.D (curW w.D w.R (w.N - st.steps.1)) (w.ρ st.mode); omega
    unfold Core.isFinished at hf
    rw [hc, hwt, NoReplay.not_doing hn] at hf
    split at hf
    · cases hf
    split at hf
    · cases hf
    · simp at hf
  | n + 1, σ, σ', h, hn, ht, hb => by
    simp only [runSteps, bind_ok] at h
    obtain ⟨σ1, h1, h⟩ := h
    by_cases hf : σ.isFinished E = true
    · rw [doStep_finished hf] at h1; cases h1
      have : ∀ (m : ℕ) {τ : Core K}, runSteps E m σ = .ok τ → τ = σ := by
        intro m
        induction m with
        | zero => intro τ hτ; cases hτ; rfl
        | succ m ih =>
          intro τ hτ
          simp only [runSteps, bind_ok] at hτ
          obtain ⟨σ2, h2, h3⟩ := hτ
          rw [doStep_finished hf] at h2; cases h2
          exact ih h3
      rw [this n h]; exact hf
    · have hf : σ.isFinished E = false := by simpa using hf
      have := doStep_weight w hd hw h1 hn hf
      obtain ⟨a, b⟩ := doStep_inTime hd h1 ht hn
      exact runSteps_finishes hd hw n h b a (by omega)

theorem le_sum_of_mem {a : ℕ} : ∀ {l : List ℕ}, a ∈ l → a ≤ l.sum
  | b :: l, h => by
    rw [List.sum_cons]
    rcases List.mem_cons.1 h with rfl | h
    · omega
    · have := le_sum_of_mem h
      omega

/-- **Termination** (without deaggregation): some number of rounds is enough for any analysis, unless a
round raises.  Without urgent transitions every transition takes time, so nothing is assumed about
cycles; with them, no cycle of transitions (a bounded rank goes down along each one). -/
theorem C34_terminates_partial {E : Env K} (hd : ¬ E.deaggOn)
    (hu : E.set.urgent = true → ∃ (rank : ℕ → ℕ) (R : ℕ), (∀ i, rank i ≤ R) ∧
      ∀ (i : ℕ) (l : List ℕ), E.ha.out[i]? = some l → ∀ ti ∈ l, ∀ t : Tr K, E.ha.trans[ti]? = some t →
        rank t.dst < rank i)
    {init : List (SS K)} (hl : ∀ st ∈ init, st.steps = (0, 0)) {σ0 : Core K}
    (h0 : setup E init = .ok σ0) :
    ∃ n, ∀ σ, runSteps E n σ0 = .ok σ → σ.isFinished E = true := by
  obtain ⟨a, b, -⟩ := setup_inTime (N := E.set.numSteps) h0 (fun st hs => by rw [hl st hs]; exact Nat.zero_le _)
  have hout : ∀ (i : ℕ) (l : List ℕ), E.ha.out[i]? = some l → l.length ≤ (E.ha.out.map List.length).sum :=
    fun i l h => le_sum_of_mem (List.mem_map_of_mem (List.mem_of_getElem? h))
  by_cases hur : E.set.urgent = true
  · obtain ⟨rank, R, h1, h2⟩ := hu hur
    let w : Wt := ⟨E.set.numSteps, (E.ha.out.map List.length).sum, R, rank⟩
    exact ⟨w.total σ0, fun σ h => runSteps_finishes w hd ⟨rfl, hout, h1, fun _ => h2⟩ _ h b a le_rfl⟩
  · let w : Wt := ⟨E.set.numSteps, (E.ha.out.map List.length).sum, 0, fun _ => 0⟩
    exact ⟨w.total σ0, fun σ h => runSteps_finishes w hd
      ⟨rfl, hout, fun _ => le_rfl, fun h => absurd h hur⟩ _ h b a le_rfl⟩

end Hylaa
