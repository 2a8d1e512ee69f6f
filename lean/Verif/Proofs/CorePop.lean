import Verif.Proofs.CorePost
import Verif.Proofs.CoreApprox

/-! Taking operations off the waiting list. -/

set_option linter.unusedSectionVars false

namespace Hylaa
open Spec
variable {K : Type} [Field K] [LinearOrder K] [IsStrictOrderedRing K] [JumpAt K]

theorem waitItem_ok {E : Env K} {σ : Core K} {o : ℕ} {w : WaitItem K} (h : waitItem E σ o = .ok w) :
    w.oid = o ∧ σ.ops[o]? = some w.op ∧ σ.states[w.op.post]? = some w.st ∧
      ∃ m, E.ha.modes[w.st.mode]? = some m ∧ w.name = m.name := by
  simp only [waitItem, bind_ok, needSome_ok, pure_ok] at h
  obtain ⟨op, h1, st, h2, m, h3, rfl⟩ := h
  exact ⟨rfl, h1, h2, m, h3, rfl⟩

theorem mapM_ok {α β : Type} {f : α → Except Err β} : ∀ {l : List α} {l' : List β},
    l.mapM f = .ok l' → List.Forall₂ (fun a b => f a = .ok b) l l'
  | [], l', h => by simp only [List.mapM_nil, pure_ok] at h; subst h; exact .nil
  | a :: l, l', h => by
    simp only [List.mapM_cons, bind_ok, pure_ok] at h
    obtain ⟨b, hb, bs, hbs, rfl⟩ := h
    exact .cons hb (mapM_ok hbs)

/-- The operations read are those of the waiting list, in order. -/
theorem waitItems_oids {E : Env K} {σ : Core K} : ∀ {l : List ℕ} {items : List (WaitItem K)},
    l.mapM (waitItem E σ) = .ok items → items.map (fun w => w.oid) = l ∧
      ∀ w ∈ items, waitItem E σ w.oid = .ok w
  | [], items, h => by
    simp only [List.mapM_nil, pure_ok] at h; subst h; exact ⟨rfl, by simp⟩
  | o :: l, items, h => by
    simp only [List.mapM_cons, bind_ok, pure_ok] at h
    obtain ⟨b, hb, bs, hbs, rfl⟩ := h
    obtain ⟨h1, h2⟩ := waitItems_oids hbs
    have e := (waitItem_ok hb).1
    refine ⟨by simp [h1, e], ?_⟩
    intro w hw
    rcases List.mem_cons.1 hw with rfl | hw
    · rw [e]; exact hb
    · exact h2 w hw

/-- What the strategy returns: some of the waiting operations, all compatible with one of them. -/
theorem stratPop_spec {E : Env K} {items l : List (WaitItem K)} (h : stratPop E items = .ok l) :
    l.Sublist items ∧ l ≠ [] ∧ (E.set.strat = none → ∃ w, l = [w]) ∧
      ∀ s, E.set.strat = some s → ∃ best ∈ l, ∀ w ∈ l, compatible s best w = true := by
  simp only [stratPop, bind_ok, needSome_ok, pure_ok] at h
  obtain ⟨first, hf, rfl⟩ := h
  have hfm := List.mem_of_getElem? hf
  cases hs : E.set.strat with
  | none =>
    refine ⟨List.singleton_sublist.2 hfm, by simp, fun _ => ⟨first, rfl⟩, by simp⟩
  | some s =>
    simp only
    have hbest : ∀ (its : List (WaitItem K)) (a : WaitItem K), a ∈ items → (∀ b ∈ its, b ∈ items) →
        its.foldl (fun a b => if better s.pop a b then b else a) a ∈ items := by
      intro its
      induction its with
      | nil => intro a ha _; exact ha
      | cons b its ih =>
        intro a ha hb
        rw [List.foldl_cons]
        refine ih _ ?_ fun c hc => hb c (by simp [hc])
        split
        · exact hb b (by simp)
        · exact ha
    have hb := hbest items first hfm fun _ h => h
    have hbc : compatible s (items.foldl (fun a b => if better s.pop a b then b else a) first)
        (items.foldl (fun a b => if better s.pop a b then b else a) first) = true := by
      simp [compatible]
    refine ⟨List.filter_sublist, ?_, by simp, ?_⟩
    · intro hc
      have : (items.foldl (fun a b => if better s.pop a b then b else a) first) ∈
          items.filter (compatible s (items.foldl (fun a b => if better s.pop a b then b else a) first)) :=
        List.mem_filter.2 ⟨hb, hbc⟩
      rw [hc] at this; simp at this
    · intro s' hs'
      cases hs'
      exact ⟨_, List.mem_filter.2 ⟨hb, hbc⟩, fun w hw => (List.mem_filter.1 hw).2⟩

theorem restrictPop_spec {E : Env K} {l l' : List (WaitItem K)} (h : restrictPop E l = .ok l') :
    l'.Sublist l ∧ l' ≠ [] ∧ (2 ≤ l'.length → ∀ w ∈ l', w.op.parent ≠ none) := by
  simp only [restrictPop, bind_ok, needSome_ok, pure_ok] at h
  obtain ⟨first, hf, m, -, rfl⟩ := h
  have hfm := List.mem_of_getElem? hf
  have key : ∀ l1 : List (WaitItem K), l1.Sublist l → l1 ≠ [] →
      (match l1.find? (fun w : WaitItem K => w.op.parent.isNone) with | some w => [w] | none => l1).Sublist l ∧
      (match l1.find? (fun w : WaitItem K => w.op.parent.isNone) with | some w => [w] | none => l1) ≠ [] ∧
      (2 ≤ (match l1.find? (fun w : WaitItem K => w.op.parent.isNone) with | some w => [w] | none => l1).length →
        ∀ w ∈ (match l1.find? (fun w : WaitItem K => w.op.parent.isNone) with | some w => [w] | none => l1),
          w.op.parent ≠ none) := by
    intro l1 h1 h2
    cases hq : l1.find? (fun w : WaitItem K => w.op.parent.isNone) with
    | some w =>
      have := List.mem_of_find?_eq_some hq
      refine ⟨List.singleton_sublist.2 (h1.subset this), by simp, by simp⟩
    | none =>
      refine ⟨h1, h2, fun _ w hw hc => ?_⟩
      rw [List.find?_eq_none] at hq
      exact hq w hw (by simp [hc])
  by_cases hme : m.isError = true
  · rw [if_pos hme]; exact key [first] (List.singleton_sublist.2 hfm) (by simp)
  · rw [if_neg hme]; exact key l (List.Sublist.refl _) (List.ne_nil_of_mem hfm)

/-- Deaggregation is only used together with `require_same_path`. -/
def Env.SamePath (E : Env K) : Prop := ∀ s, E.set.strat = some s → s.deagg = true → s.samePath = true

theorem compatible_eq {E : Env K} {σ : Core K} {s : AggStrat}
    {a b : WaitItem K} (ha : waitItem E σ a.oid = .ok a) (hb : waitItem E σ b.oid = .ok b)
    (hinj : ∀ (o o' : ℕ) op op', σ.ops[o]? = some op → σ.ops[o']? = some op' → op.post = op'.post → o = o')
    (h : compatible s a b = true) : b.st.mode = a.st.mode ∧ (s.samePath = true →
      b.op.trans = a.op.trans ∧ b.op.parent = a.op.parent) := by
  obtain ⟨-, a1, a2, -⟩ := waitItem_ok ha
  obtain ⟨-, b1, b2, -⟩ := waitItem_ok hb
  unfold compatible at h
  simp only [Bool.or_eq_true, decide_eq_true_eq, Bool.and_eq_true, Bool.not_eq_true'] at h
  rcases h with h | ⟨h1, h2⟩
  · have e := hinj b.oid a.oid b.op a.op b1 a1 h
    rw [e, a1] at b1
    have e2 : a.op = b.op := Option.some.inj b1
    rw [← e2, a2] at b2
    rw [← Option.some.inj b2, e2]
    exact ⟨rfl, fun _ => ⟨rfl, rfl⟩⟩
  · refine ⟨h1, fun hs => ?_⟩
    rcases h2 with h2 | h2
    · rw [hs] at h2; cases h2
    · exact h2

theorem popWaiting_spec {E : Env K} (hE : E.OkJ) (hsp : E.SamePath) {X0 : ℕ → (ℕ → K) → Prop}
    {gh : Ghost K} {σ σ' : Core K} (hI : Idle E X0 σ gh)
    (herr : ∀ o ∈ σ.waiting, ∀ m, E.ha.modes[gh.M o]? = some m → m.isError = false)
    (h : popWaiting E σ = .ok σ') : ∃ gh' ν nd st, Body E X0 σ' gh' [] [ν] ∧
      NodeSt E gh' σ' ν nd st 0 ∧ st.stepIn = 0 ∧ nd.ops = [] ∧ σ'.cur = some ν ∧ σ'.queue = [] ∧
      σ'.rep = none ∧ σ'.tookTt = false := by
  simp only [popWaiting, bind_ok, assert_ok, pure_ok] at h
  obtain ⟨items, hitems, l1, hl1, l, hl, _, -, at_, hat, ⟨σ1, ν⟩, hmk, rfl⟩ := h
  obtain ⟨o1, o2⟩ := waitItems_oids hitems
  obtain ⟨s1, s2, s3, s4⟩ := stratPop_spec hl1
  obtain ⟨r1, r2, r3⟩ := restrictPop_spec hl
  have hB := hI.body
  have hsub : l.Sublist items := r1.trans s1
  have hsubw : (l.map fun w => w.oid).Sublist σ.waiting := by rw [← o1]; exact hsub.map _
  have hitem : ∀ w ∈ l, waitItem E σ w.oid = .ok w := fun w hw => o2 w (hsub.subset hw)
  have hfresh : ∀ w ∈ l, w.op.child = none ∧ w.st.mode = gh.M w.oid := by
    intro w hw
    obtain ⟨-, w1, w2, -⟩ := waitItem_ok (hitem w hw)
    obtain ⟨op, q1, q2⟩ := hB.wait w.oid (hsubw.subset (List.mem_map.2 ⟨w, hw, rfl⟩))
    rw [w1] at q1; cases q1
    obtain ⟨st, q3, q4⟩ := hB.fresh w.oid w.op w1 (.inl q2)
    rw [w2] at q3; cases q3
    exact ⟨q2, q4.mode⟩
  obtain ⟨w0, hw0⟩ := List.exists_mem_of_ne_nil l r2
  have hsame : ∀ w ∈ l, w.st.mode = w0.st.mode ∧ (E.deaggOn → w.op.parent = w0.op.parent) := by
    intro w hw
    cases hs : E.set.strat with
    | none =>
      obtain ⟨w', hw'⟩ := s3 hs
      have hm : ∀ v ∈ l, v = w' := fun v hv => by
        have := r1.subset hv
        rw [hw'] at this; simpa using this
      rw [hm w hw, hm w0 hw0]
      exact ⟨rfl, fun _ => rfl⟩
    | some s =>
      obtain ⟨best, hb1, hb2⟩ := s4 s hs
      have hbi : waitItem E σ best.oid = .ok best := o2 best (s1.subset hb1)
      obtain ⟨c1, c2⟩ := compatible_eq hbi (hitem w hw) hB.postInj (hb2 w (r1.subset hw))
      obtain ⟨d1, d2⟩ := compatible_eq hbi (hitem w0 hw0) hB.postInj (hb2 w0 (r1.subset hw0))
      refine ⟨c1.trans d1.symm, ?_⟩
      rintro ⟨s', hs', hdg⟩
      rw [hs] at hs'; cases hs'
      have := hsp s hs hdg
      rw [(c2 this).2, (d2 this).2]
  have htake := hB.take (ids := l.map fun w => w.oid) (fun o ho => hsubw.subset ho)
  have hj : CanJoin E { σ with waiting := σ.waiting.filter fun o => !(l.map fun w => w.oid).contains o } gh
      [] [] (l.map fun w => w.oid) w0.st.mode := by
    refine ⟨by simpa using r2, hsubw.nodup hB.waitNodup, ?_, ?_, ?_, ?_, ?_⟩
    · obtain ⟨-, -, -, m, q1, -⟩ := waitItem_ok (hitem w0 hw0)
      refine ⟨m, q1, herr w0.oid (hsubw.subset (List.mem_map.2 ⟨w0, hw0, rfl⟩)) m ?_⟩
      rw [← (hfresh w0 hw0).2]; exact q1
    · intro p hp
      obtain ⟨w, hw, rfl⟩ := List.mem_map.1 hp
      obtain ⟨-, w1, -⟩ := waitItem_ok (hitem w hw)
      refine ⟨w.op, w1, ?_, .inl (hfresh w hw).1, fun hlen => r3 (by simpa using hlen) w hw⟩
      rw [← (hfresh w hw).2]; exact (hsame w hw).1
    · intro hd p hp q hq op oq hop hoq
      obtain ⟨w, hw, rfl⟩ := List.mem_map.1 hp
      obtain ⟨w', hw', rfl⟩ := List.mem_map.1 hq
      obtain ⟨-, w1, -⟩ := waitItem_ok (hitem w hw)
      obtain ⟨-, w1', -⟩ := waitItem_ok (hitem w' hw')
      have e1 : op = w.op := Option.some.inj (hop.symm.trans w1)
      have e2 : oq = w'.op := Option.some.inj (hoq.symm.trans w1')
      rw [e1, e2, (hsame w hw).2 hd, (hsame w' hw').2 hd]
    · intro p hp hc
      have := (List.mem_filter.1 hc).2
      simp only [List.contains_eq_mem, hp, decide_true, Bool.not_true] at this
      cases this
    · intro a μ nd p hanc hup hμ hp hpn
      obtain ⟨w, hw, rfl⟩ := List.mem_map.1 hp
      obtain ⟨-, w1, -⟩ := waitItem_ok (hitem w hw)
      have hlive : NLive σ a := by
        rcases hanc with hanc | ⟨o, op, ho, h1, h2⟩
        · simp at hanc
        · have : o ∈ σ.waiting := by
            rcases ho with ho | ho
            · exact (List.mem_filter.1 ho).1
            · exact hsubw.subset (by simpa using ho)
          exact hB.live.1 o this op a h1 h2
      have := hlive μ nd w.oid w.op hup hμ hpn w1
      rw [(hfresh w hw).1] at this; cases this
  have hat' : ∀ a, at_ = some a → aggTypeOf E = .ok a := by
    intro a ha
    split at hat
    · simp only [bind_ok, pure_ok] at hat
      obtain ⟨t, ht, h2⟩ := hat
      rw [ha] at h2; cases h2; exact ht
    · cases hat; cases ha
  obtain ⟨ss, rts, sid, st, e1, e2, e3, e4, e5, -⟩ := makeNode_spec hE (L := []) htake hj hat' hmk
  refine ⟨_, ν, _, st, ?_, ⟨e4.node, e4.state, e4.mode, e4.ok, e4.cle, e4.time, e4.lo, e4.noLeft⟩, e5, rfl,
    rfl, ?_, ?_, ?_⟩
  · rw [e2]
    exact e3.misc (some σ.nodes.length) σ1.queue σ1.rep σ1.tookTt
  · rw [e1]; exact hI.queue
  · rw [e1]; exact hI.rep
  · rw [e1]; exact hI.tt

theorem makeNode_le {E : Env K} {σ σ' : Core K} {ids : List ℕ} {a : Option AggType} {s : Option String}
    {nid : ℕ} (hm : makeNode E σ ids a s = .ok (σ', nid)) : FlagLe σ σ' := by
  simp only [makeNode, bind_ok, needSome_ok, pure_ok, Prod.mk.injEq] at hm
  obtain ⟨os, hos, sts, hsts, ⟨σ1, sid⟩, hns, st, hst, rfl, hnid⟩ := hm
  have : σ1.hasConc = σ.hasConc ∧ σ1.hasAgg = σ.hasAgg := by
    unfold nodeState at hns
    split at hns
    · cases hns; exact ⟨rfl, rfl⟩
    · simp only [bind_ok, needSome_ok, pure_ok, Prod.mk.injEq] at hns
      obtain ⟨at_, -, ⟨σ2, st2⟩, hagg, rfl, -⟩ := hns
      simp only [aggregateOps, bind_ok, needSome_ok] at hagg
      obtain ⟨st0, -, m, -, hagg⟩ := hagg
      split at hagg
      · simp only [bind_ok, pure_ok, Prod.mk.injEq] at hagg
        obtain ⟨-, -, -, -, rfl, -⟩ := hagg
        exact ⟨rfl, rfl⟩
      · simp only [bind_ok, needSome_ok, pure_ok, Prod.mk.injEq] at hagg
        obtain ⟨-, -, -, -, -, -, -, -, -, -, rfl, -⟩ := hagg
        exact ⟨rfl, rfl⟩
  exact ⟨fun h => by show σ1.hasConc = true; rw [this.1]; exact h,
    fun h => by show σ1.hasAgg = true; rw [this.2]; exact h⟩

theorem popWaiting_le {E : Env K} {σ σ' : Core K} (h : popWaiting E σ = .ok σ') : FlagLe σ σ' := by
  simp only [popWaiting, bind_ok, assert_ok, pure_ok] at h
  obtain ⟨items, hitems, l1, hl1, l, hl, _, -, at_, hat, ⟨σ1, ν⟩, hmk, rfl⟩ := h
  have := makeNode_le hmk
  exact ⟨this.1, this.2⟩

theorem stepPop_le {E : Env K} {σ σ' : Core K} (h : stepPop E σ = .ok σ') : FlagLe σ σ' := by
  simp only [stepPop, bind_ok, needSome_ok] at h
  obtain ⟨σ1, h1, c, -, st, -, m, -, h⟩ := h
  have l1 := popWaiting_le h1
  split at h
  · exact l1.trans (leftInvariant_le h)
  · simp only [bind_ok] at h
    obtain ⟨⟨σ2, f⟩, h2, h⟩ := h
    have l2 := intersectCur_le h2
    split at h
    · obtain ⟨_, _, _, _, _, -, -, -, rfl⟩ := approxCur_eq h
      exact l1.trans l2
    · exact (l1.trans l2).trans (leftInvariant_le h)

/-- **`do_step_pop`** (and the urgent guards). -/
theorem stepPop_spec {E : Env K} (hE : E.OkJ) (hsp : E.SamePath) {X0 : ℕ → (ℕ → K) → Prop}
    {gh : Ghost K} {σ σ1 σ' : Core K} (hI : Idle E X0 σ gh)
    (herr : ∀ o ∈ σ.waiting, ∀ m, E.ha.modes[gh.M o]? = some m → m.isError = false)
    (h : stepPop E σ = .ok σ1)
    (h' : (if E.set.urgent && σ1.curState.isSome then checkGuards E σ1 else .ok σ1) = .ok σ') :
    Flag E σ' ∨ ∃ gh', Running E X0 σ' gh' ∨ Idle E X0 σ' gh' := by
  simp only [stepPop, bind_ok, needSome_ok] at h
  obtain ⟨σ0, h1, cc, hcc, st0, hst0, m, hm, h⟩ := h
  obtain ⟨gh', ν, nd, st, a1, a2, a3, a4, a5, a6, a7, a8⟩ := popWaiting_spec hE hsp hI herr h1
  rw [curState_eq a5 a2.node a2.noLeft] at hcc
  cases hcc
  simp only at hst0
  have : st0 = st := Option.some.inj (hst0.symm.trans a2.state)
  subst this
  obtain ⟨m', k1, k2, -⟩ := a2.ok
  rw [hm] at k1; cases k1
  rw [k2] at h
  simp only [Bool.false_eq_true, if_false, bind_ok] at h
  obtain ⟨⟨σ2, f⟩, h2, h⟩ := h
  have hd0 : Done E gh' σ0.ops ν nd fun _ _ => False := fun _ _ _ _ _ _ _ _ _ hf => hf.elim
  obtain ⟨st2, qs, b1, b2, b3, b4, b5, b6, b7, b8, b9⟩ := intersectCur_spec hE a1 a2 hd0 a5 h2
  rw [a4, a3] at b2 b3
  have hcur : σ2.cur = some ν := by rw [b8]; exact a5
  have hq : σ2.queue = [] := by rw [b8]; exact a6
  have hr : σ2.rep = none := by rw [b8]; exact a7
  have ht : σ2.tookTt = false := by rw [b8]; exact a8
  have hpend : ∀ o, NOp.tr o ∈ [] ++ qs.map (fun q : ℕ × Bool => NOp.inv 0 q.1 q.2) → o ∈ σ2.waiting := by
    intro o ho
    simp at ho
  rw [a3] at b4 b9
  split at h
  swap
  · -- infeasible
    rename_i hf
    simp only [Bool.not_eq_true] at hf
    have hI' := leftInvariant_spec b1 b2 (b3.left (s := 0) (b9 hf) fun k ti _ h0 => (h0 rfl).elim) hpend hcur hq hr ht h
    have hnc : σ1.curState = none := by unfold Core.curState; rw [hI'.cur]
    rw [hnc] at h'
    simp at h'
    subst h'
    exact .inr ⟨gh', .inr hI'⟩
  · obtain rfl := approxCur_none hE.noApprox h
    have hRun : Run E X0 σ1 gh' ν { nd with ops := [] ++ qs.map fun q => .inv 0 q.1 q.2 } st2 1
        fun _ _ => False := by
      refine ⟨b1, ⟨b2, .inr ⟨le_refl _, b4⟩, ?_⟩, b3, hpend, hcur, hq, hr⟩
      intro s i b hb
      simp only [List.nil_append, List.mem_map] at hb
      obtain ⟨q, -, hb⟩ := hb
      cases hb
      exact .inr ⟨rfl, b4⟩
    split at h'
    · -- urgent
      simp only [checkGuards, bind_ok, needSome_ok] at h'
      obtain ⟨c3, hc3, st3, hst3, ts, hts, h3⟩ := h'
      rw [curState_eq hRun.cur hRun.ready.node hRun.ready.noLeft] at hc3
      cases hc3
      simp only at hst3 h3
      have : st3 = st2 := Option.some.inj (hst3.symm.trans hRun.ready.state)
      subst this
      rw [hRun.ready.mode] at hts
      rcases guardLoop_spec hE ts hRun (fun k tj a => by rw [ht] at a; cases a) rfl hts (fun _ h => h) h3 with
        hf | ⟨gh2, nd', st', q1, q2, q3, q4, q5, q6, q7⟩
      · exact .inl hf
      · refine .inr ⟨gh2, .inl ⟨ν, nd', st', 1, ⟨q1.body, q1.ready, ?_, q1.pend, q1.cur, q1.queue, q1.rep⟩,
          fun hc => (q7 hc).resolve_left (by rw [ht]; simp)⟩⟩
        intro x n k ti j y r1 r2 r3 r4
        refine q1.done x n k ti j y r1 r2 r3 (.inr ?_)
        by_cases hk2 : st3.stepIn < k
        · right
          rcases r4 with r4 | r4
          · omega
          · exact ⟨r4, hk2⟩
        refine .inl ⟨?_, ?_⟩
        · omega
        · obtain ⟨m', t, z, l, j1, j2, j3, j4, j5, j6, -⟩ := r2
          rw [q4] at j5
          have : l = ts := Option.some.inj (j5.symm.trans hts)
          rw [← this]; exact j6
    · rename_i hu
      cases h'
      refine .inr ⟨gh', .inl ⟨ν, _, st2, 1, ⟨hRun.body, hRun.ready, ?_, hRun.pend, hcur, hq, hr⟩,
        fun hc => by simp [ht] at hc⟩⟩
      intro x n k ti j y r1 r2 r3 r4
      exfalso
      have hk : k = 0 := by
        have : k ≤ st2.stepIn := r4.resolve_right (by simp [ht])
        omega
      obtain ⟨m', t, z, l, j1, j2, j3, j4, -⟩ := r2
      have hurg : E.set.urgent = true := (j4 hk).1
      apply hu
      rw [curState_eq hRun.cur hRun.ready.node hRun.ready.noLeft, hurg]
      rfl

end Hylaa
