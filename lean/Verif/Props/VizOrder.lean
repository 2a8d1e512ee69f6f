import Verif.Props.VizRun

/-!
# C67: the steps of a node's operations

In every run without deaggregation a node's operations are recorded in the order of their steps, so a picture shows
every transition of a complete node.
-/

set_option linter.unusedSectionVars false

namespace Hylaa
open Spec
variable {K : Type} [Field K] [LinearOrder K] [IsStrictOrderedRing K]

/-- Operations are recorded in the order of their steps, up to the step the node's state set has reached. -/
structure TInv (σ : Core K) : Prop where
  exist : ∀ (n : ℕ) nd i, σ.nodes[n]? = some nd → NOp.tr i ∈ nd.ops → i < σ.ops.length
  sorted : ∀ (n : ℕ) nd, σ.nodes[n]? = some nd → StepsInOrder σ.ops nd.ops
  bound : ∀ (n : ℕ) nd, σ.nodes[n]? = some nd → ∃ st, σ.states[nd.state]? = some st ∧
    ∀ o ∈ nd.ops, ∀ s, o.stepAt σ.ops = some s → s ≤ st.stepIn

theorem stepAt_congr {ops ops' : List (OpTr K)} {o : NOp}
    (h : ∀ i, o = .tr i → ops'[i]?.map (fun op => op.step) = ops[i]?.map fun op => op.step) :
    o.stepAt ops' = o.stepAt ops := by
  cases o with
  | tr i => exact h i rfl
  | left s b => rfl
  | inv s j b => rfl

/-- Nodes as before, operations' steps as before, state sets not set back. -/
theorem TInv.keep {σ σ' : Core K} (h : TInv σ)
    (h2 : ∀ i < σ.ops.length, σ'.ops[i]?.map (fun op => op.step) = σ.ops[i]?.map fun op => op.step)
    (h3 : ∀ (k : ℕ) st, σ.states[k]? = some st → ∃ st', σ'.states[k]? = some st' ∧ st.stepIn ≤ st'.stepIn)
    (n : ℕ) (nd : Node) (hn : σ.nodes[n]? = some nd) :
    (∀ i, NOp.tr i ∈ nd.ops → i < σ.ops.length) ∧ StepsInOrder σ'.ops nd.ops ∧
      ∃ st, σ'.states[nd.state]? = some st ∧ ∀ o ∈ nd.ops, ∀ s, o.stepAt σ'.ops = some s → s ≤ st.stepIn := by
  have hs : ∀ o ∈ nd.ops, o.stepAt σ'.ops = o.stepAt σ.ops := fun o ho =>
    stepAt_congr fun i hi => h2 i (h.exist n nd i hn (hi ▸ ho))
  refine ⟨fun i hi => h.exist n nd i hn hi, ?_, ?_⟩
  · refine List.Pairwise.imp_of_mem ?_ (h.sorted n nd hn)
    intro a b ha hb hab s t h4 h5
    rw [hs a ha] at h4
    rw [hs b hb] at h5
    exact hab s t h4 h5
  · obtain ⟨st, a, b⟩ := h.bound n nd hn
    obtain ⟨st', c, d⟩ := h3 _ st a
    exact ⟨st', c, fun o ho s hos => le_trans (b o ho s (by rw [← hs o ho]; exact hos)) d⟩

/-- An entry is appended at the node's current step. -/
theorem TInv.push {σ σ' : Core K} (h : TInv σ) {ν : ℕ} {nd : Node} {st : SS K} {x : NOp}
    (hn : σ.nodes[ν]? = some nd) (hs : σ.states[nd.state]? = some st)
    (e1 : σ'.nodes = σ.nodes.modify ν fun n => { n with ops := n.ops ++ [x] })
    (h2 : ∀ i < σ.ops.length, σ'.ops[i]? = σ.ops[i]?) (hlen : σ.ops.length ≤ σ'.ops.length)
    (h3 : ∀ (k : ℕ) st, σ.states[k]? = some st → σ'.states[k]? = some st)
    (hx : ∀ s, x.stepAt σ'.ops = some s → s = st.stepIn) (hxe : ∀ i, x = .tr i → i < σ'.ops.length) : TInv σ' := by
  have key := h.keep (σ' := σ') (fun i hi => by rw [h2 i hi]) (fun k st hk => ⟨st, h3 k st hk, le_refl _⟩)
  have hnd : ∀ n md, σ'.nodes[n]? = some md → σ.nodes[n]? = some md ∨
      (n = ν ∧ md = { nd with ops := nd.ops ++ [x] }) := by
    intro n md hm
    rw [e1, List.getElem?_modify] at hm
    by_cases hc : ν = n
    · subst hc
      rw [hn] at hm
      simp only [if_true, Option.map_eq_map, Option.map_some, Option.some.injEq] at hm
      exact .inr ⟨rfl, hm.symm⟩
    · cases hh : σ.nodes[n]? with
      | none => rw [hh] at hm; cases hm
      | some md' =>
        rw [hh] at hm
        simp only [hc, if_false, Option.map_eq_map, Option.map_some, Option.some.injEq] at hm
        exact .inl (by rw [hm])
  obtain ⟨k1, k2, st', k3, k4⟩ := key ν nd hn
  have hst : st' = st := by
    rw [h3 _ _ hs] at k3; exact (Option.some.inj k3).symm
  subst hst
  refine ⟨fun n md i h4 h5 => ?_, fun n md h4 => ?_, fun n md h4 => ?_⟩
  · rcases hnd n md h4 with h4 | ⟨rfl, rfl⟩
    · exact lt_of_lt_of_le ((key n md h4).1 i h5) hlen
    · rcases List.mem_append.1 h5 with h5 | h5
      · exact lt_of_lt_of_le (k1 i h5) hlen
      · exact hxe i (by simpa using (List.mem_singleton.1 h5).symm)
  · rcases hnd n md h4 with h4 | ⟨rfl, rfl⟩
    · exact (key n md h4).2.1
    · unfold StepsInOrder
      rw [List.pairwise_append]
      refine ⟨k2, by simp, fun a ha b hb s t h5 h6 => ?_⟩
      rw [List.mem_singleton] at hb
      subst hb
      rw [hx t h6]
      exact k4 a ha s h5
  · rcases hnd n md h4 with h4 | ⟨rfl, rfl⟩
    · exact (key n md h4).2.2
    · refine ⟨st', k3, fun o ho s h5 => ?_⟩
      rcases List.mem_append.1 ho with ho | ho
      · exact k4 o ho s h5
      · rw [List.mem_singleton] at ho
        subst ho
        exact le_of_eq (hx s h5)

theorem TInv.same {σ σ' : Core K} (h : TInv σ) (h1 : σ'.nodes = σ.nodes) (h2 : σ'.ops = σ.ops)
    (h3 : ∀ (k : ℕ) st, σ.states[k]? = some st → ∃ st', σ'.states[k]? = some st' ∧ st.stepIn ≤ st'.stepIn) :
    TInv σ' := by
  have key := h.keep (σ' := σ') (fun i _ => by rw [h2]) h3
  refine ⟨fun n nd i h4 h5 => ?_, fun n nd h4 => ?_, fun n nd h4 => ?_⟩ <;> rw [h1] at h4
  · rw [h2]; exact (key n nd h4).1 i h5
  · exact (key n nd h4).2.1
  · exact (key n nd h4).2.2

theorem TInv.set {σ : Core K} (h : TInv σ) {sid : ℕ} {st st' : SS K} (hs : σ.states[sid]? = some st)
    (hle : st.stepIn ≤ st'.stepIn) : TInv (σ.setState sid st') := by
  refine h.same rfl rfl fun k s hk => ?_
  unfold Core.setState
  by_cases hc : sid = k
  · subst hc
    rw [hs] at hk; cases hk
    exact ⟨st', List.getElem?_set_self (lt_of_getElem? hs), hle⟩
  · exact ⟨s, by simp only [List.getElem?_set_ne hc]; exact hk, le_refl _⟩

theorem TInv.misc {σ σ' : Core K} (h : TInv σ) (h1 : σ'.nodes = σ.nodes) (h2 : σ'.ops = σ.ops)
    (h3 : σ'.states = σ.states) : TInv σ' :=
  h.same h1 h2 fun k st hk => ⟨st, by rw [h3]; exact hk, le_refl _⟩

theorem errorReached_tinv {σ : Core K} (b : Bool) (ce : List (CeSeg K)) (h : TInv σ) : TInv (σ.errorReached b ce) := by
  unfold Core.errorReached
  split <;> exact h.misc rfl rfl rfl

theorem leftInvariant_tinv {σ σ' : Core K} {b : Bool} (h : σ.leftInvariant b = .ok σ') (ht : TInv σ) : TInv σ' := by
  simp only [Core.leftInvariant, bind_ok, needSome_ok, pure_ok] at h
  obtain ⟨c, hc, st, hst, rfl⟩ := h
  obtain ⟨-, nd, h1, h2, -⟩ := curState_inv hc
  rw [← h2] at hst
  refine TInv.misc (σ := σ.pushOp c.1 (.left st.stepIn b)) ?_ rfl rfl rfl
  exact ht.push h1 hst rfl (fun _ _ => rfl) (le_refl _) (fun _ _ h => h)
    (fun s hs => by simpa [NOp.stepAt] using hs.symm) (fun i hi => by cases hi)

theorem addSuccessor_tinv {E : Env K} {σ σ' : Core K} {ti : ℕ} {t : Tr K} {tlp : Lp K}
    {st : SS K} {nid : ℕ} {nd : Node} (hn : σ.nodes[nid]? = some nd) (hs : σ.states[nd.state]? = some st)
    (h : addSuccessor E σ ti t tlp st nid = .ok σ') (ht : TInv σ) : TInv σ' := by
  simp only [addSuccessor, bind_ok, pure_ok] at h
  obtain ⟨⟨σ1, r⟩, h1, rfl⟩ := h
  rcases makeOp_shape h1 with ⟨rfl, rfl⟩ | ⟨rfl, c, post, p1, p2, p3, p4, p5, rfl⟩
  · exact ht
  · exact ht.push hn hs (x := .tr σ.ops.length) rfl (fun i hi => by
        simp only [Core.pushOp]
        exact List.getElem?_append_left hi) (by simp [Core.pushOp]) (fun k s hk => append_keep hk)
      (fun s h => by
        simp only [NOp.stepAt, Core.pushOp, List.getElem?_concat_length, Option.map_some, Option.some.injEq] at h
        exact h.symm)
      (fun i hi => by cases hi; simp [Core.pushOp])

theorem ttCheck_tinv {E : Env K} {σ σ' : Core K} {t : Tr K} {g : Csr K × List K} {sid : ℕ}
    (h : ttCheck E σ t g sid = .ok σ') (ht : TInv σ) : TInv σ' := by
  unfold ttCheck at h
  split at h
  · simp only [bind_ok, needSome_ok, pure_ok] at h
    obtain ⟨st, hst, src, -, r, -, rfl⟩ := h
    exact (ht.set (st' := { st with lp := r.1 }) hst (le_refl _)).misc rfl rfl rfl
  · cases h; exact ht

theorem guardLoop_tinv {E : Env K} {nid sid : ℕ} : ∀ (ts : List ℕ) {σ σ' : Core K}
    {nd : Node}, σ.nodes[nid]? = some nd → nd.state = sid →
    guardLoop E nid sid σ ts = .ok σ' → TInv σ → TInv σ'
  | [], σ, σ', nd, _, _, h, ht => by cases h; exact ht
  | ti :: ts, σ, σ', nd, hn, hnd, h, ht => by
    simp only [guardLoop, bind_ok, needSome_ok] at h
    obtain ⟨st, hst, t, -, g, -, ⟨lp1, tl⟩, -, h⟩ := h
    have m1 : Milds true σ (σ.setState sid { st with lp := lp1 }) := .state hst ⟨rfl, rfl, rfl⟩
    have t1 : TInv (σ.setState sid { st with lp := lp1 }) := ht.set hst (le_refl _)
    simp only at h
    split at h
    · exact guardLoop_tinv (σ := σ.setState sid { st with lp := lp1 }) ts hn hnd h t1
    · simp only [bind_ok, needSome_ok] at h
      obtain ⟨dst, -, ce, -, h⟩ := h
      have m2 : Milds true σ (if dst.isError = true then
          (σ.setState sid { st with lp := lp1 }).errorReached st.concrete ce
          else σ.setState sid { st with lp := lp1 }) := by
        split
        · exact m1.trans (errorReached_mild _ _ _)
        · exact m1
      have t2 : TInv (if dst.isError = true then
          (σ.setState sid { st with lp := lp1 }).errorReached st.concrete ce
          else σ.setState sid { st with lp := lp1 }) := by
        split
        · exact errorReached_tinv _ _ t1
        · exact t1
      split at h
      · cases h; exact t2
      · simp only [bind_ok] at h
        obtain ⟨σ1, h1, σ2, h2, h3⟩ := h
        obtain ⟨l1, hn1⟩ := m2.node hn
        have hst' : (if dst.isError = true then
          (σ.setState sid { st with lp := lp1 }).errorReached st.concrete ce
          else σ.setState sid { st with lp := lp1 }).states[nd.state]? = some { st with lp := lp1 } := by
          have : ∀ b, ((σ.setState sid { st with lp := lp1 }).errorReached b ce).states =
              (σ.setState sid { st with lp := lp1 }).states := by
            intro b; unfold Core.errorReached; split <;> rfl
          have h0 : (σ.setState sid { st with lp := lp1 }).states[nd.state]? = some { st with lp := lp1 } := by
            rw [hnd]; exact List.getElem?_set_self (lt_of_getElem? hst)
          split
          · rw [this]; exact h0
          · exact h0
        have m3 := m2.trans (addSuccessor_mild (all := true) hn1 hst' h1)
        have t3 := addSuccessor_tinv hn1 hst' h1 t2
        have m4 : Milds true σ σ2 := m3.trans (ttCheck_mild h2)
        obtain ⟨l2, hn2⟩ := m4.node hn
        exact guardLoop_tinv ts hn2 hnd h3 (ttCheck_tinv h2 t3)

theorem checkGuards_tinv {E : Env K} {σ σ' : Core K} (h : checkGuards E σ = .ok σ') (ht : TInv σ) : TInv σ' := by
  simp only [checkGuards, bind_ok, needSome_ok] at h
  obtain ⟨c, hc, st, -, ts, -, h⟩ := h
  obtain ⟨-, nd, h1, h2, -⟩ := curState_inv hc
  exact guardLoop_tinv ts h1 h2 h ht

theorem pushInvs_tinv {ν : ℕ} {st : SS K} : ∀ (qs : List (ℕ × Bool)) {σ : Core K} {nd : Node},
    σ.nodes[ν]? = some nd → σ.states[nd.state]? = some st → TInv σ →
    TInv (qs.foldl (fun σ q => σ.pushOp ν (.inv st.stepIn q.1 q.2)) σ)
  | [], σ, nd, _, _, ht => ht
  | q :: qs, σ, nd, hn, hs, ht => by
    rw [List.foldl_cons]
    refine pushInvs_tinv (nd := { nd with ops := nd.ops ++ [.inv st.stepIn q.1 q.2] }) qs ?_ hs
      (ht.push hn hs rfl (fun _ _ => rfl) (le_refl _) (fun _ _ h => h)
        (fun s hs => by simpa [NOp.stepAt] using hs.symm) (fun i hi => by cases hi))
    simp only [Core.pushOp, List.getElem?_modify, hn, if_true, Option.map_eq_map, Option.map_some]

theorem intersectCur_tinv {E : Env K} {σ σ' : Core K} {f : Bool} (h : intersectCur E σ = .ok (σ', f))
    (ht : TInv σ) : TInv σ' := by
  simp only [intersectCur, bind_ok, needSome_ok, pure_ok, Prod.mk.injEq] at h
  obtain ⟨c, hc, st, hst, m, -, ⟨st', f', qs⟩, hii, rfl, -⟩ := h
  obtain ⟨-, nd, h1, h2, -⟩ := curState_inv hc
  have e := invLoop_like _ hii
  have he : st'.stepIn = st.stepIn := by rw [e]
  simp only
  rw [← he]
  refine pushInvs_tinv (nd := nd) qs h1 ?_ (ht.set hst (le_of_eq he.symm))
  rw [h2]
  exact List.getElem?_set_self (lt_of_getElem? hst)

theorem approxCur_tinv {E : Env K} {σ σ' : Core K} (h : approxCur E σ = .ok σ') (ht : TInv σ) : TInv σ' := by
  obtain ⟨c, st, lp, β, te, -, hst, -, rfl⟩ := approxCur_eq h
  exact (ht.set (st' := { st with lp := lp, lggBeta := β }) hst (le_refl _)).misc rfl rfl rfl

theorem stepState_tinv {E : Env K} {σ σ' : Core K} {sid : ℕ} {target : Option ℕ}
    (h : stepState E σ sid target = .ok σ') (ht : TInv σ) : TInv σ' := by
  simp only [stepState, bind_ok, needSome_ok, pure_ok] at h
  obtain ⟨st, hst, m, -, ⟨te, st'⟩, hs, rfl⟩ := h
  obtain ⟨e, hle⟩ := step_like hs
  have he : st'.stepIn = target.getD (st.stepIn + 1) := by rw [e]
  exact (ht.set (st' := st') hst (by rw [he]; exact hle)).misc rfl rfl rfl

theorem stepPost_tinv {E : Env K} {σ σ' : Core K} (h : stepPost E σ = .ok σ') (ht : TInv σ) : TInv σ' := by
  simp only [stepPost, bind_ok, needSome_ok] at h
  obtain ⟨c, hc, st, hst, h⟩ := h
  split at h
  · cases h; exact ht
  split at h
  · exact leftInvariant_tinv h ht
  split at h
  · exact leftInvariant_tinv h (ht.misc rfl rfl rfl)
  simp only [bind_ok] at h
  obtain ⟨⟨σ1, f⟩, h1, h⟩ := h
  have t1 := intersectCur_tinv h1 ht
  split at h
  · exact leftInvariant_tinv h t1
  simp only [bind_ok, needSome_ok] at h
  obtain ⟨σ2, h2, σ3, h3, m, -, a, -, h⟩ := h
  have t3 := checkGuards_tinv h3 (stepState_tinv h2 t1)
  split at h
  · exact leftInvariant_tinv h t3
  · cases h; exact t3

theorem popWaiting_tinv {E : Env K} {σ σ' : Core K} (h : popWaiting E σ = .ok σ') (ht : TInv σ) : TInv σ' := by
  simp only [popWaiting, bind_ok, assert_ok, pure_ok] at h
  obtain ⟨items, hitems, l1, hl1, l, hl, _, -, at_, hat, ⟨σ1, nid⟩, hmk, rfl⟩ := h
  obtain ⟨ss, rts, sid, os, sts, e1, -, f1, f2, e5, e6⟩ := makeNode_shape hmk
  rw [e1]
  simp only at e5 e6 f1 f2 ⊢
  have hsid : ∃ st, ss[sid]? = some st := by
    rcases e6 with ⟨o, op, hid, ho, rfl, -⟩ | ⟨-, rfl, -, st, s0, h1, -⟩
    · rw [hid] at f1
      cases f1 with
      | cons ha hb =>
        cases hb
        rw [ho] at ha; cases ha
        cases f2 with
        | cons hc hd =>
          obtain ⟨st', a, -⟩ := e5 _ _ hc
          exact ⟨st', a⟩
    · exact ⟨st, h1⟩
  set ids := l.map fun w => w.oid
  have hstep : ∀ i : ℕ, ((ids.foldl (fun l o => l.modify o fun x => { x with child := some σ.nodes.length }) σ.ops)[i]?).map
      (fun op : OpTr K => op.step) = σ.ops[i]?.map fun op : OpTr K => op.step := by
    intro i
    rw [setChild_getV]
    split
    · cases σ.ops[i]? <;> rfl
    · rfl
  have key := ht.keep (σ' := { σ with
      states := ss
      ops := ids.foldl (fun l o => l.modify o fun x => { x with child := some σ.nodes.length }) σ.ops })
    (fun i _ => hstep i) (fun k st hk => by
      obtain ⟨st', a, -, -, b⟩ := e5 k st hk
      exact ⟨st', a, le_of_eq b.symm⟩)
  have hnd : ∀ (n : ℕ) (md : Node), (σ.nodes ++ [({ state := sid, parents := ids, agg := at_ } : Node)])[n]? = some md →
      σ.nodes[n]? = some md ∨ md = ({ state := sid, parents := ids, agg := at_ } : Node) := by
    intro n md hm
    rw [List.getElem?_append] at hm
    split at hm
    · exact .inl hm
    · have hl := lt_of_getElem? hm
      simp only [List.length_singleton] at hl
      have he : n - σ.nodes.length = 0 := by omega
      rw [he] at hm
      simp only [List.getElem?_cons_zero, Option.some.injEq] at hm
      exact .inr hm.symm
  refine ⟨fun n md i h4 h5 => ?_, fun n md h4 => ?_, fun n md h4 => ?_⟩
  · rcases hnd n md h4 with h4 | rfl
    · simp only [makeNode_opsLen]
      exact (key n md h4).1 i h5
    · cases h5
  · rcases hnd n md h4 with h4 | rfl
    · exact (key n md h4).2.1
    · exact List.Pairwise.nil
  · rcases hnd n md h4 with h4 | rfl
    · exact (key n md h4).2.2
    · obtain ⟨st, h6⟩ := hsid
      exact ⟨st, h6, fun o ho => by cases ho⟩

theorem stepPop_tinv {E : Env K} {σ σ' : Core K} (h : stepPop E σ = .ok σ') (hp : TInv σ) : TInv σ' := by
  simp only [stepPop, bind_ok, needSome_ok] at h
  obtain ⟨σ1, h1, c, -, st, -, m, -, h⟩ := h
  have p1 := popWaiting_tinv h1 hp
  split at h
  · exact leftInvariant_tinv h p1
  · simp only [bind_ok] at h
    obtain ⟨⟨σ2, f⟩, h2, h⟩ := h
    have p2 := intersectCur_tinv h2 p1
    split at h
    · exact approxCur_tinv h p2
    · exact leftInvariant_tinv h p2

theorem setupStates_fresh {E : Env K} : ∀ (l : List (SS K)) {σ σ' : Core K},
    setupStates E σ l = .ok σ' → σ'.nodes = σ.nodes ∧ σ'.queue = σ.queue ∧ σ'.rep = σ.rep
  | [], σ, σ', h => by cases h; exact ⟨rfl, rfl, rfl⟩
  | st :: l, σ, σ', h => by
    simp only [setupStates, bind_ok, needSome_ok] at h
    obtain ⟨m, -, f, -, h⟩ := h
    split at h
    · exact setupStates_fresh l h
    · simp only [bind_ok] at h
      obtain ⟨r, -, h⟩ := h
      split at h
      · exact setupStates_fresh l h
      · have := setupStates_fresh l h; exact this

/-- In every run without deaggregation, every node's operations are recorded in the order of their steps. -/
theorem C67_steps_in_order {E : Env K} (hd : ¬ E.deaggOn) {init : List (SS K)} {σ0 σ : Core K} {n : ℕ}
    (h0 : setup E init = .ok σ0) (hr : runSteps E n σ0 = .ok σ) {k : ℕ} {nd : Node} (hk : σ.nodes[k]? = some nd) :
    StepsInOrder σ.ops nd.ops := by
  have hinit : TInv σ0 ∧ σ0.queue = [] ∧ σ0.rep = none := by
    simp only [setup, bind_ok, assert_ok, need_ok, pure_ok] at h0
    obtain ⟨_, -, σ1, h1, _, -, rfl⟩ := h0
    obtain ⟨a, b, c⟩ := setupStates_fresh init h1
    have he : σ1.nodes = [] := a
    exact ⟨⟨fun n nd i h => by simp [he] at h, fun n nd h => by simp [he] at h, fun n nd h => by simp [he] at h⟩,
      b, c⟩
  obtain ⟨hp, hq, hrp⟩ := hinit
  clear h0
  suffices h : TInv σ from h.sorted k nd hk
  clear hk
  induction n generalizing σ0 with
  | zero => cases hr; exact hp
  | succ n ih =>
    simp only [runSteps, bind_ok] at hr
    obtain ⟨σ1, h1, h2⟩ := hr
    have key : TInv σ1 ∧ σ1.queue = [] ∧ σ1.rep = none := by
      have hnr : σ0.doingReplay = false := by unfold Core.doingReplay; rw [hq, hrp]; rfl
      unfold doStep at h1
      split at h1
      · cases h1; exact ⟨hp, hq, hrp⟩
      split at h1
      · have := stepPost_mild (all := true) h1
        exact ⟨stepPost_tinv h1 hp, by rw [this.replay.1]; exact hq, by rw [this.replay.2]; exact hrp⟩
      rw [hnr, getDeagg_off hd] at h1
      simp only [Bool.false_eq_true, if_false, bind_ok] at h1
      obtain ⟨dg, hdg, h1⟩ := h1
      cases hdg
      simp only [bind_ok] at h1
      obtain ⟨σ2, h3, h4⟩ := h1
      have p2 := stepPop_tinv h3 hp
      have q2 := stepPop_replay h3
      have m : Milds true σ2 σ1 ∧ TInv σ1 := by
        split at h4
        · exact ⟨checkGuards_mild h4, checkGuards_tinv h4 p2⟩
        · cases h4; exact ⟨.refl, p2⟩
      exact ⟨m.2, by rw [m.1.replay.1, q2.1]; exact hq, by rw [m.1.replay.2, q2.2]; exact hrp⟩
    exact ih h2 key.1 key.2.1 key.2.2

/-- **C67** In a picture drawn at any moment of a run without deaggregation, every transition operation of a
complete node is on an edge from that node to where it led, whose label contains its step. -/
theorem C67_transitions_drawn {E : Env K} (hd : ¬ E.deaggOn) {init : List (SS K)} {σ0 σ : Core K} {n f : ℕ}
    {out : List VDraw} (h0 : setup E init = .ok σ0) (hr : runSteps E n σ0 = .ok σ)
    (h : vizDag E.ha σ f = .ok out) {k s i : ℕ} {b : Bool} {nd : Node} {op : OpTr K} (hk : σ.nodes[k]? = some nd)
    (hl : nd.ops.getLast? = some (.left s b)) (hi : .tr i ∈ nd.ops) (ho : σ.ops[i]? = some op) :
    ∃ l : VLabel, .edge (.node k) (childName k op) (some l) ∈ out ∧ l.lo ≤ op.step ∧ op.step ≤ l.hi := by
  obtain ⟨-, -, h3, -⟩ := C67_runs_partial hd h0 hr h
  obtain ⟨nd', st, a, -, -, c⟩ := h3 k (lt_of_getElem? hk)
  rw [hk] at a; cases a
  exact c s b hl (C67_steps_in_order hd h0 hr hk) i op hi ho

/-- The hypotheses are met: in the picture of `errEx_draws` node 0 is complete after 3 steps and has transitions. -/
example : ∃ (E : Env ℚ) (init : List (SS ℚ)) (σ0 σ : Core ℚ) (n f : ℕ) (out : List VDraw), ¬ E.deaggOn ∧
    setup E init = .ok σ0 ∧ runSteps E n σ0 = .ok σ ∧ vizDag E.ha σ f = .ok out ∧
    out.any (fun e => match e with | .edge (.node 0) (.node 1) (some (.one 2)) => true | _ => false) = true := by
  obtain ⟨r, h, hr⟩ := okAnd_ok errEx_draws
  simp only [drawAfter, analyse, bind_ok, pure_ok] at h
  obtain ⟨σ, ⟨init, hi, σ0, h1, h2⟩, d, h3, rfl⟩ := h
  simp only [Bool.and_eq_true, decide_eq_true_eq] at hr
  refine ⟨exEnv 3 1 none, init, σ0, σ, 8, 1000, d, ?_, h1, h2, h3, by rw [hr.2]; rfl⟩
  rintro ⟨s, hs, -⟩
  cases hs

end Hylaa
