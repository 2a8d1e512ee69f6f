import Verif.Proofs.NodeShape

/-!
# C36–C40: the waiting list, aggregation and the history graph

Statements about the heaps of the computation (`Core`): transition operations, state sets, nodes and
the waiting list.
-/

set_option linter.unusedSectionVars false

namespace Hylaa
variable {K : Type} [Field K] [LinearOrder K] [IsStrictOrderedRing K]

/-! ### C36 -/

/-- Popping the waiting list: a non-empty batch becomes the new current node, the others stay in
order; a batch has one mode; an error-mode operation or an initial one is popped alone. -/
theorem C36_pop {E : Env K} {σ σ' : Core K} (h : popWaiting E σ = .ok σ') :
    ∃ (ids : List ℕ) (nd : Node), ids ≠ [] ∧ ids.Sublist σ.waiting ∧ nd.parents = ids ∧
      σ'.waiting = (σ.waiting.filter fun o => decide (o ∉ ids)) ∧
      σ'.nodes = σ.nodes ++ [nd] ∧ σ'.cur = some σ.nodes.length ∧
      ∀ o ∈ ids, ∃ op st m, σ.ops[o]? = some op ∧ σ.states[op.post]? = some st ∧
        E.ha.modes[st.mode]? = some m ∧ (m.isError = true → ids = [o]) ∧ (op.parent = none → ids = [o]) ∧
        ∀ o' ∈ ids, ∀ op' st', σ.ops[o']? = some op' → σ.states[op'.post]? = some st' →
          st'.mode = st.mode := by
  simp only [popWaiting, bind_ok, assert_ok, pure_ok] at h
  obtain ⟨items, hitems, l1, hl1, l, hl, _, -, at_, hat, ⟨σ1, nid⟩, hmk, rfl⟩ := h
  obtain ⟨o1, o2⟩ := waitItems_oids hitems
  obtain ⟨s1, s2, s3, s4⟩ := stratPop_spec hl1
  obtain ⟨r1, r2, r3⟩ := restrictPop_spec hl
  obtain ⟨ss, rts, sid, os, sts, e1, e2, -⟩ := makeNode_shape hmk
  have hsub : l.Sublist items := r1.trans s1
  have hitem : ∀ w ∈ l, waitItem E σ w.oid = .ok w := fun w hw => o2 w (hsub.subset hw)
  have hsame : ∀ w ∈ l1, ∀ w' ∈ l1, w.st.mode = w'.st.mode := by
    cases hs : E.set.strat with
    | none =>
      obtain ⟨w0, hw0⟩ := s3 hs
      intro w hw w' hw'
      rw [hw0] at hw hw'
      simp only [List.mem_singleton] at hw hw'
      rw [hw, hw']
    | some s =>
      obtain ⟨best, hb1, hb2⟩ := s4 s hs
      have hbi : waitItem E σ best.oid = .ok best := o2 best (s1.subset hb1)
      have key : ∀ w ∈ l1, w.st.mode = best.st.mode := by
        intro w hw
        have hwi := o2 w (s1.subset hw)
        obtain ⟨-, a1, a2, -⟩ := waitItem_ok hbi
        obtain ⟨-, b1, b2, -⟩ := waitItem_ok hwi
        have hc := hb2 w hw
        unfold compatible at hc
        simp only [Bool.or_eq_true, decide_eq_true_eq, Bool.and_eq_true] at hc
        rcases hc with hc | hc
        · rw [hc, a2] at b2
          rw [Option.some.inj b2]
        · exact hc.1
      intro w hw w' hw'
      rw [key w hw, key w' hw']
  refine ⟨l.map fun w => w.oid, _, by simpa using r2, by rw [← o1]; exact hsub.map _,
    (rfl : (Node.mk [] sid (l.map fun w => w.oid) at_).parents = _), ?_, ?_, ?_, ?_⟩
  · rw [e1]
    simp only
    refine List.filter_congr fun o _ => ?_
    rw [List.contains_eq_mem]
    by_cases hc : o ∈ l.map fun w => w.oid <;> simp only [hc, not_true, not_false_eq_true, decide_true, decide_false, Bool.not_true, Bool.not_false]
  · rw [e1]
  · rw [← e2]
  · intro o ho
    obtain ⟨w, hw, rfl⟩ := List.mem_map.1 ho
    obtain ⟨-, a1, a2, m, a3, -⟩ := waitItem_ok (hitem w hw)
    have hone : l.length = 1 → l.map (fun w => w.oid) = [w.oid] := by
      intro hlen
      obtain ⟨x, rfl⟩ := List.length_eq_one_iff.1 hlen
      simp only [List.mem_singleton] at hw
      rw [hw]; rfl
    refine ⟨w.op, w.st, m, a1, a2, a3, fun he => ?_, fun hp => ?_, ?_⟩
    · refine hone ?_
      simp only [restrictPop, bind_ok, needSome_ok, pure_ok] at hl
      obtain ⟨first, hf, m', hm', hl⟩ := hl
      have : m' = m := by
        have := hsame first (List.mem_of_getElem? hf) w (r1.subset hw)
        rw [this, a3] at hm'
        exact (Option.some.inj hm').symm
      subst this
      rw [if_pos he] at hl
      rw [← hl]
      split
      · rfl
      · rfl
    · refine hone ?_
      by_contra hc
      have h2 : 2 ≤ l.length := by
        have : l.length ≠ 0 := fun h => r2 (List.length_eq_zero_iff.1 h)
        omega
      exact r3 h2 w hw hp
    · intro o' ho' op' st' h1 h2
      obtain ⟨w', hw', rfl⟩ := List.mem_map.1 ho'
      obtain ⟨-, b1, b2, -⟩ := waitItem_ok (hitem w' hw')
      rw [b1] at h1; cases h1
      rw [b2] at h2; cases h2
      exact hsame _ (r1.subset hw') _ (r1.subset hw)

/-- Every operation ever created is in exactly one batch (node) or in the waiting list, once. -/
def Core.Partition (σ : Core K) : Prop :=
  (σ.nodes.flatMap (fun n => n.parents) ++ σ.waiting).Perm (List.range σ.ops.length)

theorem flatMap_modify (ν : ℕ) (x : NOp) : ∀ (l : List Node),
    (l.modify ν fun n => { n with ops := n.ops ++ [x] }).flatMap (fun n => n.parents) =
      l.flatMap fun n => n.parents := by
  intro l
  induction l generalizing ν with
  | nil => cases ν <;> rfl
  | cons a l ih =>
    cases ν with
    | zero => rfl
    | succ ν =>
      simp only [List.modify_succ_cons, List.flatMap_cons]
      rw [ih]

theorem Mild.partition {σ σ' : Core K} (h : Mild true σ σ') (hp : σ.Partition) : σ'.Partition := by
  unfold Core.Partition at *
  cases h with
  | state h1 h2 => exact hp
  | misc => exact hp
  | push ν x =>
    unfold Core.pushOp
    simp only
    rw [flatMap_modify]; exact hp
  | @op ν nd st post ti c b h1 h2 h3 h4 h5 h6 =>
    rw [h5 rfl]
    unfold Core.pushOp
    simp only [if_true]
    rw [flatMap_modify, List.length_append, List.length_singleton, List.range_succ, ← List.append_assoc]
    exact hp.append_right _

theorem Milds.partition {σ σ' : Core K} (h : Milds true σ σ') (hp : σ.Partition) : σ'.Partition := by
  induction h with
  | refl => exact hp
  | tail _ h2 ih => exact h2.partition ih

theorem makeNode_opsLen {c : ℕ} : ∀ (ids : List ℕ) (l : List (OpTr K)),
    (ids.foldl (fun l o => l.modify o fun x => { x with child := some c }) l).length = l.length
  | [], l => rfl
  | i :: ids, l => by rw [List.foldl_cons, makeNode_opsLen ids, List.length_modify]

theorem popWaiting_partition {E : Env K} {σ σ' : Core K} (h : popWaiting E σ = .ok σ') (hp : σ.Partition) :
    σ'.Partition := by
  obtain ⟨ids, nd, h1, h2, h3, h4, h5, -⟩ := C36_pop h
  have hops : σ'.ops.length = σ.ops.length := by
    simp only [popWaiting, bind_ok, assert_ok, pure_ok] at h
    obtain ⟨items, hitems, l1, hl1, l, hl, _, -, at_, hat, ⟨σ1, nid⟩, hmk, rfl⟩ := h
    obtain ⟨ss, rts, sid, os, sts, e1, -⟩ := makeNode_shape hmk
    simp only
    rw [e1]
    exact makeNode_opsLen _ _
  have hnd : σ.waiting.Nodup := (hp.nodup_iff.2 List.nodup_range).of_append_right
  unfold Core.Partition at *
  rw [h4, h5, hops, List.flatMap_append, List.append_assoc]
  refine List.Perm.trans (List.Perm.append_left _ ?_) hp
  simp only [List.flatMap_cons, List.flatMap_nil, List.append_nil, h3]
  refine (List.perm_ext_iff_of_nodup ?_ hnd).2 fun o => ?_
  · rw [List.nodup_append]
    refine ⟨h2.nodup hnd, hnd.filter _, ?_⟩
    intro a ha b hb
    have := (List.mem_filter.1 hb).2
    simp only [decide_eq_true_eq] at this
    rintro rfl
    exact this ha
  · rw [List.mem_append, List.mem_filter]
    constructor
    · rintro (ho | ho)
      · exact h2.subset ho
      · exact ho.1
    · intro ho
      by_cases hc : o ∈ ids
      · exact .inl hc
      · exact .inr ⟨ho, by simpa using hc⟩

theorem Milds.replay {σ σ' : Core K} (h : Milds true σ σ') : σ'.queue = σ.queue ∧ σ'.rep = σ.rep := by
  induction h with
  | refl => exact ⟨rfl, rfl⟩
  | tail _ h2 ih =>
    have : ∀ {σ σ' : Core K}, Mild true σ σ' → σ'.queue = σ.queue ∧ σ'.rep = σ.rep := by
      intro σ σ' h
      cases h with
      | state h1 h2 => exact ⟨rfl, rfl⟩
      | misc _ _ _ _ _ _ _ _ h => exact h rfl
      | push ν x => exact ⟨rfl, rfl⟩
      | op h1 h2 h3 h4 h5 h6 => exact ⟨rfl, rfl⟩
    exact ⟨(this h2).1.trans ih.1, (this h2).2.trans ih.2⟩

theorem stepPop_replay {E : Env K} {σ σ' : Core K} (h : stepPop E σ = .ok σ') :
    σ'.queue = σ.queue ∧ σ'.rep = σ.rep := by
  simp only [stepPop, bind_ok, needSome_ok] at h
  obtain ⟨σ1, h1, c, -, st, -, m, -, h⟩ := h
  have p1 : σ1.queue = σ.queue ∧ σ1.rep = σ.rep := by
    simp only [popWaiting, bind_ok, assert_ok, pure_ok] at h1
    obtain ⟨items, hitems, l1, hl1, l, hl, _, -, at_, hat, ⟨σ1, nid⟩, hmk, rfl⟩ := h1
    obtain ⟨ss, rts, sid, os, sts, e1, -⟩ := makeNode_shape hmk
    rw [e1]; exact ⟨rfl, rfl⟩
  split at h
  · have := (leftInvariant_mild (all := true) h).replay
    exact ⟨this.1.trans p1.1, this.2.trans p1.2⟩
  · simp only [bind_ok] at h
    obtain ⟨⟨σ2, f⟩, h2, h⟩ := h
    have p2 := (intersectCur_mild (all := true) h2).replay
    split at h
    · have := (approxCur_mild (all := true) h).replay
      exact ⟨this.1.trans (p2.1.trans p1.1), this.2.trans (p2.2.trans p1.2)⟩
    · have := (leftInvariant_mild (all := true) h).replay
      exact ⟨this.1.trans (p2.1.trans p1.1), this.2.trans (p2.2.trans p1.2)⟩

theorem stepPop_partition {E : Env K} {σ σ' : Core K} (h : stepPop E σ = .ok σ') (hp : σ.Partition) :
    σ'.Partition := by
  simp only [stepPop, bind_ok, needSome_ok] at h
  obtain ⟨σ1, h1, c, -, st, -, m, -, h⟩ := h
  have p1 := popWaiting_partition h1 hp
  split at h
  · exact (leftInvariant_mild h).partition p1
  · simp only [bind_ok] at h
    obtain ⟨⟨σ2, f⟩, h2, h⟩ := h
    have p2 := (intersectCur_mild (all := true) h2).partition p1
    split at h
    · exact (approxCur_mild (all := true) h).partition p2
    · exact (leftInvariant_mild h).partition p2

theorem setupStates_partition {E : Env K} : ∀ (l : List (SS K)) {σ σ' : Core K},
    σ.Partition → setupStates E σ l = .ok σ' → σ'.Partition
  | [], σ, σ', hp, h => by cases h; exact hp
  | st :: l, σ, σ', hp, h => by
    simp only [setupStates, bind_ok, needSome_ok] at h
    obtain ⟨m, -, f, -, h⟩ := h
    split at h
    · exact setupStates_partition l hp h
    · simp only [bind_ok] at h
      obtain ⟨r, -, h⟩ := h
      split at h
      · exact setupStates_partition l hp h
      · refine setupStates_partition l ?_ h
        unfold Core.Partition at *
        simp only
        rw [List.length_append, List.length_singleton, List.range_succ, ← List.append_assoc]
        exact hp.append_right _

/-- No state set is lost or duplicated: in every history without deaggregation each operation ever
created is in exactly one popped batch or still waiting. -/
theorem C36_no_loss {E : Env K} (hd : ¬ E.deaggOn) {init : List (SS K)} {σ0 σ : Core K} {n : ℕ}
    (h0 : setup E init = .ok σ0) (hr : runSteps E n σ0 = .ok σ) :
    (σ.nodes.flatMap (fun n => n.parents) ++ σ.waiting).Perm (List.range σ.ops.length) := by
  have hinit : σ0.Partition ∧ σ0.queue = [] ∧ σ0.rep = none := by
    simp only [setup, bind_ok, assert_ok, need_ok, pure_ok] at h0
    obtain ⟨_, -, σ1, h1, _, -, rfl⟩ := h0
    have hq : ∀ (l : List (SS K)) {σ σ' : Core K}, setupStates E σ l = .ok σ' →
        σ'.queue = σ.queue ∧ σ'.rep = σ.rep := by
      intro l
      induction l with
      | nil => intro σ σ' h; cases h; exact ⟨rfl, rfl⟩
      | cons st l ih =>
        intro σ σ' h
        simp only [setupStates, bind_ok, needSome_ok] at h
        obtain ⟨m, -, f, -, h⟩ := h
        split at h
        · exact ih h
        · simp only [bind_ok] at h
          obtain ⟨r, -, h⟩ := h
          split at h
          · exact ih h
          · have := ih h; exact this
    have h00 : ({} : Core K).Partition := List.Perm.refl _
    exact ⟨setupStates_partition init h00 h1, (hq init h1).1, (hq init h1).2⟩
  obtain ⟨hp, hq, hrp⟩ := hinit
  clear h0
  induction n generalizing σ0 with
  | zero => cases hr; exact hp
  | succ n ih =>
    simp only [runSteps, bind_ok] at hr
    obtain ⟨σ1, h1, h2⟩ := hr
    have key : σ1.Partition ∧ σ1.queue = [] ∧ σ1.rep = none := by
      have hnr : σ0.doingReplay = false := by unfold Core.doingReplay; rw [hq, hrp]; rfl
      unfold doStep at h1
      split at h1
      · cases h1; exact ⟨hp, hq, hrp⟩
      split at h1
      · have := stepPost_mild (all := true) h1
        exact ⟨this.partition hp, by rw [this.replay.1]; exact hq, by rw [this.replay.2]; exact hrp⟩
      rw [hnr, getDeagg_off hd] at h1
      simp only [Bool.false_eq_true, if_false, bind_ok] at h1
      obtain ⟨dg, hdg, h1⟩ := h1
      cases hdg
      simp only [bind_ok] at h1
      obtain ⟨σ2, h3, h4⟩ := h1
      have p2 := stepPop_partition h3 hp
      have q2 := stepPop_replay h3
      have m : Milds true σ2 σ1 := by
        split at h4
        · exact checkGuards_mild h4
        · cases h4; exact .refl
      exact ⟨m.partition p2, by rw [m.replay.1, q2.1]; exact hq, by rw [m.replay.2, q2.2]; exact hrp⟩
    exact ih h2 key.1 key.2.1 key.2.2

/-! ### C37 -/

/-- `best`, at position `i`, has the highest score; among equals the smallest mode name, among equals
the first. -/
def IsBest (p : PopType) (items : List (WaitItem K)) (i : ℕ) (best : WaitItem K) : Prop :=
  items[i]? = some best ∧ ∀ j w, items[j]? = some w → popScore p w.st ≤ popScore p best.st ∧
    (popScore p w.st = popScore p best.st → best.name ≤ w.name ∧ (w.name = best.name → i ≤ j))

theorem foldl_best (p : PopType) (first : WaitItem K) (l : List (WaitItem K)) :
    l[0]? = some first → ∃ i, IsBest p l i (l.foldl (fun a b => if better p a b then b else a) first) := by
  induction l using List.reverseRecOn with
  | nil => intro h; cases h
  | append_singleton l b ih =>
    intro h
    rw [List.foldl_append]
    cases l with
    | nil =>
      simp only [List.nil_append, List.getElem?_cons_zero, Option.some.injEq] at h
      subst h
      simp only [List.foldl_cons, List.foldl_nil]
      refine ⟨0, by rw [ite_self]; rfl, fun j w hj => ?_⟩
      have hj0 : j = 0 := by
        have := lt_of_getElem? hj
        simpa using this
      subst hj0
      simp only [List.nil_append, List.getElem?_cons_zero, Option.some.injEq] at hj
      subst hj
      rw [ite_self]
      exact ⟨le_refl _, fun _ => ⟨String.le_refl _, fun _ => le_refl _⟩⟩
    | cons a l =>
      obtain ⟨i, hi, hb⟩ := ih (by simpa using h)
      rw [show ∀ x : WaitItem K, [b].foldl (fun a b => if better p a b then b else a) x =
        if better p x b then b else x from fun _ => rfl]
      generalize hbest : (a :: l).foldl (fun a b => if better p a b then b else a) first = best at hi hb
      have hil := lt_of_getElem? hi
      by_cases hbt : better p best b = true
      · rw [if_pos hbt]
        unfold better at hbt
        simp only [Bool.or_eq_true, decide_eq_true_eq, Bool.and_eq_true] at hbt
        refine ⟨(a :: l).length, List.getElem?_concat_length .., fun j w hj => ?_⟩
        rcases append_inv hj with ⟨hj, -⟩ | ⟨rfl, rfl⟩
        · obtain ⟨q1, q2⟩ := hb j w hj
          rcases hbt with hbt | ⟨hbt, hn⟩
          · exact ⟨by omega, fun he => by omega⟩
          · refine ⟨by omega, fun he => ?_⟩
            have := (q2 (by omega)).1
            have hle : b.name ≤ w.name := by
              by_contra hc
              rw [String.not_le] at hc
              exact (String.not_le.2 (String.lt_trans hc hn)) this
            refine ⟨hle, fun e => ?_⟩
            rw [e] at this
            exact absurd this (String.not_le.2 hn)
        · exact ⟨le_refl _, fun _ => ⟨String.le_refl _, fun _ => le_refl _⟩⟩
      · rw [if_neg hbt]
        unfold better at hbt
        simp only [Bool.or_eq_true, decide_eq_true_eq, Bool.and_eq_true, not_or, not_and, not_lt] at hbt
        refine ⟨i, append_keep hi, fun j w hj => ?_⟩
        rcases append_inv hj with ⟨hj, -⟩ | ⟨rfl, rfl⟩
        · exact hb j w hj
        · refine ⟨by omega, fun he => ⟨hbt.2 he, fun _ => by omega⟩⟩

/-- The aggregated strategy pops the first operation with the highest score (ties: smallest mode
name) and, with it, exactly the waiting operations of the same mode, along the same path if
`require_same_path` is set. -/
theorem C37_highest_score {E : Env K} {s : AggStrat} (hs : E.set.strat = some s)
    {items l : List (WaitItem K)} (h : stratPop E items = .ok l) :
    ∃ i best, IsBest s.pop items i best ∧ best ∈ l ∧ l.Sublist items ∧
      ∀ w, w ∈ l ↔ w ∈ items ∧ (w.op.post = best.op.post ∨ (w.st.mode = best.st.mode ∧
        (s.samePath = true → w.op.trans = best.op.trans ∧ w.op.parent = best.op.parent))) := by
  simp only [stratPop, bind_ok, needSome_ok, pure_ok, hs] at h
  obtain ⟨first, hf, rfl⟩ := h
  obtain ⟨i, hi⟩ := foldl_best s.pop first items hf
  have hmem : ∀ (best w : WaitItem K), compatible s best w = true ↔ (w.op.post = best.op.post ∨
      (w.st.mode = best.st.mode ∧
        (s.samePath = true → w.op.trans = best.op.trans ∧ w.op.parent = best.op.parent))) := by
    intro best w
    unfold compatible
    cases s.samePath <;> simp
  refine ⟨i, _, hi, ?_, List.filter_sublist, fun w => ?_⟩
  · rw [List.mem_filter]
    exact ⟨List.mem_of_getElem? hi.1, (hmem _ _).2 (.inl rfl)⟩
  · rw [List.mem_filter, hmem]

/-- **C37**, the score spelled out: with the default order the popped operations contain one whose set is
entered earliest (its smallest number of steps is minimal), with `avgTime` one with the smallest sum of both
ends of the interval of steps, with `maxTime` one with the largest number of steps. -/
theorem C37_order {E : Env K} {s : AggStrat} (hs : E.set.strat = some s)
    {items l : List (WaitItem K)} (h : stratPop E items = .ok l) :
    ∃ best ∈ l, (s.pop = .minTime → ∀ w ∈ items, best.st.steps.1 ≤ w.st.steps.1) ∧
      (s.pop = .avgTime → ∀ w ∈ items, best.st.steps.1 + best.st.steps.2 ≤ w.st.steps.1 + w.st.steps.2) ∧
      (s.pop = .maxTime → ∀ w ∈ items, w.st.steps.2 ≤ best.st.steps.2) := by
  obtain ⟨i, best, hb, hl, -, -⟩ := C37_highest_score hs h
  have hle : ∀ w ∈ items, popScore s.pop w.st ≤ popScore s.pop best.st := fun w hw => by
    obtain ⟨j, hj⟩ := List.mem_iff_getElem?.1 hw
    exact (hb.2 j w hj).1
  refine ⟨best, hl, fun hp w hw => ?_, fun hp w hw => ?_, fun hp w hw => ?_⟩ <;>
    · have := hle w hw
      rw [hp] at this
      simp only [popScore] at this
      omega

/-- The items passed to the strategy are the waiting operations with their state sets, in order. -/
theorem C37_items {E : Env K} {σ : Core K} {items : List (WaitItem K)}
    (h : σ.waiting.mapM (waitItem E σ) = .ok items) : items.map (fun w => w.oid) = σ.waiting ∧
      ∀ w ∈ items, σ.ops[w.oid]? = some w.op ∧ σ.states[w.op.post]? = some w.st := by
  obtain ⟨h1, h2⟩ := waitItems_oids h
  refine ⟨h1, fun w hw => ?_⟩
  obtain ⟨-, a, b, -⟩ := waitItem_ok (h2 w hw)
  exact ⟨a, b⟩

/-! ### C38 -/

/-- `(a, b)` is the smallest interval containing the given intervals. -/
def IsHull (l : List (ℕ × ℕ)) (a b : ℕ) : Prop :=
  (∀ s ∈ l, a ≤ s.1 ∧ s.2 ≤ b) ∧ (∃ s ∈ l, s.1 = a) ∧ ∃ s ∈ l, s.2 = b

theorem stepInterval_hull {l : List (ℕ × ℕ)} (h : l ≠ []) : IsHull l (stepInterval l).1 (stepInterval l).2 := by
  unfold stepInterval
  refine ⟨fun s hs => ⟨min?_getD_le (List.mem_map.2 ⟨s, hs, rfl⟩), le_max?_getD (List.mem_map.2 ⟨s, hs, rfl⟩)⟩, ?_, ?_⟩
  · cases hm : (l.map fun s => s.1).min? with
    | none => rw [List.min?_eq_none_iff] at hm; simp at hm; exact (h hm).elim
    | some b =>
      rw [List.min?_eq_some_iff] at hm
      obtain ⟨s, hs, e⟩ := List.mem_map.1 hm.1
      exact ⟨s, hs, e⟩
  · cases hm : (l.map fun s => s.2).max? with
    | none => rw [List.max?_eq_none_iff] at hm; simp at hm; exact (h hm).elim
    | some b =>
      rw [List.max?_eq_some_iff] at hm
      obtain ⟨s, hs, e⟩ := List.mem_map.1 hm.1
      exact ⟨s, hs, e⟩

/-- A node made of several operations has a new state set, marked as not concrete, whose step
interval is the smallest one containing those of the parts; a node made of one operation uses that
operation's own state set. -/
theorem C38_step_interval {E : Env K} {σ σ' : Core K} {ids : List ℕ} {at_ : Option AggType}
    {s : Option String} {nid : ℕ} (h : makeNode E σ ids at_ s = .ok (σ', nid)) :
    ∃ nd st sts, σ'.nodes = σ.nodes ++ [nd] ∧ nid = σ.nodes.length ∧ nd.parents = ids ∧
      σ'.states[nd.state]? = some st ∧
      List.Forall₂ (fun o st => ∃ op, σ.ops[o]? = some op ∧ σ.states[op.post]? = some st) ids sts ∧
      (2 ≤ ids.length → st.concrete = false ∧ nd.state = σ.states.length ∧
        IsHull (sts.map fun s => s.steps) st.steps.1 st.steps.2) ∧
      (∀ o, ids = [o] → ∃ s0, sts = [s0] ∧ st.concrete = s0.concrete ∧ st.steps = s0.steps) := by
  obtain ⟨ss, rts, sid, os, sts, e1, e2, fos, fsts, hk, hor⟩ := makeNode_shape h
  have hF : List.Forall₂ (fun o st => ∃ op, σ.ops[o]? = some op ∧ σ.states[op.post]? = some st) ids sts := by
    clear hor e1 e2 h
    induction fos generalizing sts with
    | nil => cases fsts; exact .nil
    | cons h1 _ ih =>
      cases fsts with
      | cons h2 h3 => exact .cons ⟨_, h1, h2⟩ (ih _ h3)
  rcases hor with ⟨o, op, rfl, h1, rfl, -⟩ | ⟨hl, rfl, -, st, s0, a1, a2, a3, -⟩
  · cases hF with
    | @cons _ s0 _ _ hx ht =>
      cases ht
      obtain ⟨op', h2, h3⟩ := hx
      rw [h1] at h2; cases h2
      obtain ⟨st', b1, b2, b3, -⟩ := hk _ _ h3
      refine ⟨⟨[], op.post, [o], at_⟩, st', [s0], by rw [e1], e2, rfl, by rw [e1]; exact b1,
        .cons ⟨op, h1, h3⟩ .nil, fun hl => by simp at hl, fun _ _ => ⟨s0, rfl, b2.2.1, b3⟩⟩
  · refine ⟨⟨[], σ.states.length, ids, at_⟩, st, sts, by rw [e1], e2, rfl, by rw [e1]; exact a1, hF,
      fun _ => ⟨a2, rfl, ?_⟩, fun o ho => by rw [ho] at hl; simp at hl⟩
    rw [a3]
    refine stepInterval_hull ?_
    intro hc
    have h0 : sts = [] := by simpa using hc
    have hle := hF.length_eq
    rw [h0, List.length_nil] at hle
    omega

/-- The aggregated set contains every part (`aggregate_chull` and `aggregate_box_arnoldi`). -/
theorem C38_contains_parts {E : Env K} (hE : E.Sound) {i : ℕ} {m : Mode K}
    (hm : E.ha.modes[i]? = some m) (he : m.isError = false) {σ σ' : Core K} {ops : List ℕ}
    {os : List (OpTr K)} {sts : List (SS K)} {at_ : AggType} {st : SS K}
    (hsts : List.Forall₂ (fun o s => σ.states[o.post]? = some s) os sts)
    (hent : ∀ s ∈ sts, s.Entry E ∧ s.mode = i) (hlo : at_.kind = .chull → ∀ s ∈ sts, s.lp.NoLo)
    (hlen : 2 ≤ sts.length) (h : aggregateOps E σ ops os sts at_ = .ok (σ', st)) :
    st.mode = i ∧ st.concrete = false ∧ ∀ s ∈ sts, ∀ x, s.lp.Mem x → st.lp.Mem x := by
  obtain ⟨-, -, a3, -, a5, -, a7⟩ := aggregateOps_spec hE hm he hsts hent hlo hlen h
  exact ⟨a3, a5, a7⟩

/-! ### C39 -/

/-- Splitting a node: two new nodes whose parts, concatenated, are the parts of the old one; the old
nodes stay. -/
theorem C39_split {E : Env K} {σ σ' : Core K} {nid a b : ℕ} (h : splitNode E σ nid = .ok (σ', (a, b))) :
    ∃ n na nb, σ.nodes[nid]? = some n ∧ σ'.nodes = σ.nodes ++ [na, nb] ∧
      a = σ.nodes.length ∧ b = σ.nodes.length + 1 ∧ na.parents ≠ [] ∧ nb.parents ≠ [] ∧
      na.parents ++ nb.parents = n.parents ∧ na.agg = n.agg ∧ nb.agg = n.agg := by
  simp only [splitNode, bind_ok, needSome_ok, assert_ok, pure_ok, Prod.mk.injEq] at h
  obtain ⟨n, hn, _, hl, st, -, ⟨σ1, a'⟩, h1, ⟨σ2, b'⟩, h2, rfl, rfl, rfl⟩ := h
  obtain ⟨ss, rts, sid, os, sts, e1, e2, -⟩ := makeNode_shape h1
  obtain ⟨ss', rts', sid', os', sts', e1', e2', -⟩ := makeNode_shape h2
  simp only at e1' e2'
  refine ⟨n, ⟨[], sid, n.parents.take (n.parents.length / 2), n.agg⟩,
    ⟨[], sid', n.parents.drop (n.parents.length / 2), n.agg⟩, hn, ?_, e2, ?_, ?_, ?_,
    List.take_append_drop _ _, rfl, rfl⟩
  · show σ2.nodes = _
    rw [e1']
    show σ1.nodes ++ _ = _
    rw [e1]; simp
  · show b' = _
    rw [e2', e1]; simp
  · intro hc
    have := congrArg List.length hc
    simp only [List.length_take, List.length_nil] at this
    omega
  · intro hc
    have := congrArg List.length hc
    simp only [List.length_drop, List.length_nil] at this
    omega

/-! ### C40 -/

/-- Operation `o` goes back to an initial set through nodes that are each made of a single operation,
using that operation's own state set. -/
inductive Lineage (σ : Core K) : ℕ → Prop
  | init {o op} : σ.ops[o]? = some op → op.parent = none → Lineage σ o
  | step {o op ν nd p q} : σ.ops[o]? = some op → op.parent = some ν → σ.nodes[ν]? = some nd →
      nd.parents = [p] → σ.ops[p]? = some q → q.post = nd.state → Lineage σ p → Lineage σ o

/-- Operations keep their parents and state sets, nodes their parts and state sets. -/
def Grow (σ σ' : Core K) : Prop :=
  (∀ (o : ℕ) op, σ.ops[o]? = some op → ∃ op', σ'.ops[o]? = some op' ∧ op'.parent = op.parent ∧
    op'.post = op.post) ∧
  ∀ (ν : ℕ) nd, σ.nodes[ν]? = some nd → ∃ nd', σ'.nodes[ν]? = some nd' ∧ nd'.parents = nd.parents ∧
    nd'.state = nd.state

theorem Lineage.grow {σ σ' : Core K} (h : Grow σ σ') {o : ℕ} (hl : Lineage σ o) : Lineage σ' o := by
  induction hl with
  | init h1 h2 =>
    obtain ⟨op', a1, a2, -⟩ := h.1 _ _ h1
    exact .init a1 (a2.trans h2)
  | step h1 h2 h3 h4 h5 h6 _ ih =>
    obtain ⟨op', a1, a2, -⟩ := h.1 _ _ h1
    obtain ⟨nd', b1, b2, b3⟩ := h.2 _ _ h3
    obtain ⟨q', c1, c2, c3⟩ := h.1 _ _ h5
    exact .step a1 (a2.trans h2) b1 (b2.trans h4) c1 (by rw [c3, b3, h6]) ih

structure ConcInv (σ : Core K) : Prop where
  post : ∀ (o : ℕ) op, σ.ops[o]? = some op → op.post < σ.states.length
  op : ∀ (o : ℕ) op st, σ.ops[o]? = some op → σ.states[op.post]? = some st → st.concrete = true → Lineage σ o
  nd : ∀ (ν : ℕ) nd st, σ.nodes[ν]? = some nd → σ.states[nd.state]? = some st → st.concrete = true →
    ∃ p q, nd.parents = [p] ∧ σ.ops[p]? = some q ∧ q.post = nd.state ∧ Lineage σ p
  ndSt : ∀ (ν : ℕ) nd, σ.nodes[ν]? = some nd → nd.state < σ.states.length

theorem Mild.grow {all : Bool} {σ σ' : Core K} (h : Mild all σ σ') : Grow σ σ' := by
  refine ⟨?_, fun ν nd hν => by
    obtain ⟨l, hl⟩ := h.node hν
    exact ⟨_, hl, rfl, rfl⟩⟩
  cases h with
  | state h1 h2 => exact fun o op ho => ⟨op, ho, rfl, rfl⟩
  | misc => exact fun o op ho => ⟨op, ho, rfl, rfl⟩
  | push ν x => exact fun o op ho => ⟨op, ho, rfl, rfl⟩
  | op h1 h2 h3 h4 h5 h6 => exact fun o op ho => ⟨op, append_keep ho, rfl, rfl⟩

theorem Mild.conc {σ σ' : Core K} (h : Mild false σ σ') (hc : ConcInv σ) : ConcInv σ' := by
  have hg := h.grow
  cases h with
  | @state sid st st' h1 h2 =>
    have back : ∀ (k : ℕ) s, (σ.states.set sid st')[k]? = some s → ∃ s0, σ.states[k]? = some s0 ∧
        s.concrete = s0.concrete := by
      intro k s hk
      by_cases hks : sid = k
      · subst hks
        rw [List.getElem?_set_self (lt_of_getElem? h1)] at hk; cases hk
        exact ⟨st, h1, h2.2.1⟩
      · rw [List.getElem?_set_ne hks] at hk
        exact ⟨s, hk, rfl⟩
    refine ⟨fun o op ho => by simpa [Core.setState] using hc.post o op ho, ?_, ?_,
      fun ν nd hν => by simpa [Core.setState] using hc.ndSt ν nd hν⟩
    · intro o op s ho hs hcc
      obtain ⟨s0, b1, b2⟩ := back _ s hs
      exact (hc.op o op s0 ho b1 (b2.symm.trans hcc)).grow hg
    · intro ν nd s hν hs hcc
      obtain ⟨s0, b1, b2⟩ := back _ s hs
      obtain ⟨p, q, q1, q2, q3, q4⟩ := hc.nd ν nd s0 hν b1 (b2.symm.trans hcc)
      exact ⟨p, q, q1, q2, q3, q4.grow hg⟩
  | misc =>
    refine ⟨hc.post, fun o op s ho hs hcc => (hc.op o op s ho hs hcc).grow hg, ?_, hc.ndSt⟩
    intro ν nd s hν hs hcc
    obtain ⟨p, q, q1, q2, q3, q4⟩ := hc.nd ν nd s hν hs hcc
    exact ⟨p, q, q1, q2, q3, q4.grow hg⟩
  | push ν x =>
    refine ⟨hc.post, fun o op s ho hs hcc => (hc.op o op s ho hs hcc).grow hg, ?_, ?_⟩
    · intro μ nd s hμ hs hcc
      obtain ⟨md, r1, r2, r3, -⟩ := pushOp_inv hμ
      obtain ⟨p, q, q1, q2, q3, q4⟩ := hc.nd μ md s r1 (by rw [← r3]; exact hs) hcc
      exact ⟨p, q, r2.trans q1, q2, q3.trans r3.symm, q4.grow hg⟩
    · intro μ nd hμ
      obtain ⟨md, r1, r2, r3, -⟩ := pushOp_inv hμ
      rw [r3]; exact hc.ndSt μ md r1
  | @op ν nd st post ti c b h1 h2 h3 h4 h5 h6 =>
    have back : ∀ (k : ℕ) s, k < σ.states.length → (σ.states ++ [post])[k]? = some s →
        σ.states[k]? = some s := by
      intro k s hk hs
      rcases append_inv hs with ⟨h, -⟩ | ⟨rfl, rfl⟩
      · exact h
      · omega
    have hnd : ∀ (μ : ℕ) md, ({ σ with
          ops := σ.ops ++ [{ step := st.stepIn, parent := some ν, child := none, trans := some ti,
                             post := σ.states.length, center := c }]
          states := σ.states ++ [post] } : Core K).pushOp ν (.tr σ.ops.length) |>.nodes[μ]? = some md →
        ∃ md0, σ.nodes[μ]? = some md0 ∧ md.parents = md0.parents ∧ md.state = md0.state := by
      intro μ md hμ
      obtain ⟨md0, r1, r2, r3, -⟩ := pushOp_inv hμ
      exact ⟨md0, r1, r2, r3⟩
    refine ⟨?_, ?_, ?_, ?_⟩
    · intro o op ho
      show op.post < (σ.states ++ [post]).length
      rw [List.length_append, List.length_singleton]
      rcases append_inv ho with ⟨h, -⟩ | ⟨rfl, rfl⟩
      · have := hc.post o op h; omega
      · exact Nat.lt_succ_self _
    · intro o op s ho hs hcc
      rcases append_inv ho with ⟨h, -⟩ | ⟨rfl, rfl⟩
      · exact (hc.op o op s h (back _ s (hc.post o op h) hs) hcc).grow hg
      · have hs' : (σ.states ++ [post])[σ.states.length]? = some s := hs
        rw [List.getElem?_concat_length] at hs'
        cases hs'
        obtain ⟨p, q, q1, q2, q3, q4⟩ := hc.nd ν nd st h1 h2 (h3.symm.trans hcc)
        obtain ⟨nd', b1, b2, b3⟩ := hg.2 _ _ h1
        obtain ⟨q', c1, c2, c3⟩ := hg.1 _ _ q2
        exact .step ho rfl b1 (b2.trans q1) c1 (by rw [c3, b3, q3]) (q4.grow hg)
    · intro μ md s hμ hs hcc
      obtain ⟨md0, r1, r2, r3⟩ := hnd μ md hμ
      have hs' : (σ.states ++ [post])[md.state]? = some s := hs
      rw [r3] at hs'
      obtain ⟨p, q, q1, q2, q3, q4⟩ := hc.nd μ md0 s r1 (back _ s (hc.ndSt μ md0 r1) hs') hcc
      obtain ⟨q', c1, c2, c3⟩ := hg.1 _ _ q2
      exact ⟨p, q', r2.trans q1, c1, by rw [c3, r3, q3], q4.grow hg⟩
    · intro μ md hμ
      obtain ⟨md0, r1, r2, r3⟩ := hnd μ md hμ
      show md.state < (σ.states ++ [post]).length
      have := hc.ndSt μ md0 r1
      rw [List.length_append, r3]; omega

theorem setChild_get2 {c : ℕ} : ∀ (ids : List ℕ) (l : List (OpTr K)) (o : ℕ),
    ∃ f : OpTr K → OpTr K, (∀ x, (f x).parent = x.parent ∧ (f x).post = x.post ∧ (f x).step = x.step) ∧
      (ids.foldl (fun l o => l.modify o fun x => { x with child := some c }) l)[o]? = (l[o]?).map f
  | [], l, o => ⟨id, fun _ => ⟨rfl, rfl, rfl⟩, by simp⟩
  | i :: ids, l, o => by
    obtain ⟨f, hf, h⟩ := setChild_get2 ids (l.modify i fun x => { x with child := some c }) o
    rw [List.foldl_cons, h, List.getElem?_modify]
    by_cases hi : i = o
    · refine ⟨fun x => f { x with child := some c }, fun x => hf _, ?_⟩
      cases l[o]? <;> simp [hi]
    · refine ⟨f, hf, ?_⟩
      cases l[o]? <;> simp [hi]

theorem makeNode_conc {E : Env K} {σ : Core K} {r : Core K × ℕ} {ids : List ℕ} {at_ : Option AggType}
    {s : Option String} (h : makeNode E σ ids at_ s = .ok r) (hc : ConcInv σ) : ConcInv r.1 := by
  obtain ⟨σ', nid⟩ := r
  obtain ⟨ss, rts, sid, os, sts, rfl, -, fos, fsts, hk, hor⟩ := makeNode_shape h
  have hopf : ∀ (o : ℕ) op, σ.ops[o]? = some op → ∃ op',
      (ids.foldl (fun l o => l.modify o fun x => { x with child := some σ.nodes.length }) σ.ops)[o]? =
        some op' ∧ op'.parent = op.parent ∧ op'.post = op.post := by
    intro o op ho
    obtain ⟨f, hf, he⟩ := setChild_get2 (c := σ.nodes.length) ids σ.ops o
    rw [he, ho]
    exact ⟨f op, rfl, (hf op).1, (hf op).2.1⟩
  have hopb : ∀ (o : ℕ) op',
      (ids.foldl (fun l o => l.modify o fun x => { x with child := some σ.nodes.length }) σ.ops)[o]? =
        some op' → ∃ op, σ.ops[o]? = some op ∧ op'.parent = op.parent ∧ op'.post = op.post := by
    intro o op' ho
    obtain ⟨f, hf, he⟩ := setChild_get2 (c := σ.nodes.length) ids σ.ops o
    rw [he] at ho
    obtain ⟨op, h1, rfl⟩ := Option.map_eq_some_iff.1 ho
    exact ⟨op, h1, (hf op).1, (hf op).2.1⟩
  have hg : Grow σ { σ with
        states := ss
        roots := rts
        nodes := σ.nodes ++ [{ state := sid, parents := ids, agg := at_ }]
        ops := ids.foldl (fun l o => l.modify o fun x =>
          { x with child := some σ.nodes.length }) σ.ops } :=
    ⟨hopf, fun ν nd hν => ⟨nd, append_keep hν, rfl, rfl⟩⟩
  have hsl : ∀ k, k < σ.states.length → ∀ st, ss[k]? = some st → ∃ s0, σ.states[k]? = some s0 ∧
      st.concrete = s0.concrete := by
    intro k hlt st hst
    obtain ⟨st', a1, a2, -⟩ := hk k _ (List.getElem?_eq_getElem hlt)
    rw [hst] at a1; cases a1
    exact ⟨_, List.getElem?_eq_getElem hlt, a2.2.1⟩
  have hlen : σ.states.length ≤ ss.length := by
    rcases hor with ⟨_, _, _, _, _, h⟩ | ⟨_, _, h, _⟩ <;> omega
  refine ⟨?_, ?_, ?_, ?_⟩
  · intro o op' ho
    obtain ⟨op, h1, -, h3⟩ := hopb o op' ho
    have := hc.post o op h1
    show op'.post < ss.length
    omega
  · intro o op' st ho hst hcc
    obtain ⟨op, h1, -, h3⟩ := hopb o op' ho
    have hst' : ss[op.post]? = some st := by rw [← h3]; exact hst
    obtain ⟨s0, b1, b2⟩ := hsl _ (hc.post o op h1) st hst'
    exact (hc.op o op s0 h1 b1 (b2.symm.trans hcc)).grow hg
  · intro ν nd st hν hst hcc
    have hst' : ss[nd.state]? = some st := hst
    rcases append_inv hν with ⟨hν, -⟩ | ⟨rfl, rfl⟩
    · obtain ⟨s0, b1, b2⟩ := hsl _ (hc.ndSt ν nd hν) st hst'
      obtain ⟨p, q, q1, q2, q3, q4⟩ := hc.nd ν nd s0 hν b1 (b2.symm.trans hcc)
      obtain ⟨q', c1, c2, c3⟩ := hopf _ _ q2
      exact ⟨p, q', q1, c1, c3.trans q3, q4.grow hg⟩
    · rcases hor with ⟨o, op, rfl, h1, rfl, -⟩ | ⟨-, rfl, -, st', s0, a1, a2, -⟩
      · obtain ⟨s0, b1, b2⟩ := hsl _ (hc.post o op h1) st hst'
        obtain ⟨q', c1, c2, c3⟩ := hopf _ _ h1
        exact ⟨o, q', rfl, c1, c3, (hc.op o op s0 h1 b1 (b2.symm.trans hcc)).grow hg⟩
      · rw [a1] at hst'; cases hst'
        rw [a2] at hcc; cases hcc
  · intro ν nd hν
    show nd.state < ss.length
    rcases append_inv hν with ⟨hν, -⟩ | ⟨rfl, rfl⟩
    · have := hc.ndSt ν nd hν; omega
    · rcases hor with ⟨o, op, rfl, h1, rfl, h2⟩ | ⟨-, rfl, h2, -⟩
      · have := hc.post o op h1; simp only; omega
      · simp only; omega

theorem Micros.conc {E : Env K} {σ σ' : Core K} (h : Micros E σ σ') (hc : ConcInv σ) : ConcInv σ' := by
  induction h with
  | refl => exact hc
  | tail _ h2 ih =>
    cases h2 with
    | mild h => exact h.conc ih
    | node h => exact makeNode_conc h ih
    | unwait p =>
      refine ⟨ih.post, fun o op s ho hs hcc => (ih.op o op s ho hs hcc).grow ?_, ?_, ih.ndSt⟩
      · exact ⟨fun o op ho => ⟨op, ho, rfl, rfl⟩, fun ν nd hν => ⟨nd, hν, rfl, rfl⟩⟩
      · intro ν nd s hν hs hcc
        obtain ⟨p, q, q1, q2, q3, q4⟩ := ih.nd ν nd s hν hs hcc
        refine ⟨p, q, q1, q2, q3, q4.grow ?_⟩
        exact ⟨fun o op ho => ⟨op, ho, rfl, rfl⟩, fun ν nd hν => ⟨nd, hν, rfl, rfl⟩⟩

theorem setupStates_conc {E : Env K} : ∀ (l : List (SS K)) {σ σ' : Core K},
    ConcInv σ → σ.nodes = [] → (∀ (o : ℕ) op, σ.ops[o]? = some op → op.parent = none) →
    setupStates E σ l = .ok σ' → ConcInv σ'
  | [], σ, σ', hp, _, _, h => by cases h; exact hp
  | st :: l, σ, σ', hp, hn, hi, h => by
    simp only [setupStates, bind_ok, needSome_ok] at h
    obtain ⟨m, -, f, -, h⟩ := h
    split at h
    · exact setupStates_conc l hp hn hi h
    · simp only [bind_ok] at h
      obtain ⟨r, -, h⟩ := h
      split at h
      · exact setupStates_conc l hp hn hi h
      · have hi' : ∀ (o : ℕ) (op : OpTr K), (σ.ops ++ [(OpTr.mk 0 none none none
            σ.states.length none : OpTr K)])[o]? = some op → op.parent = none := by
          intro o op ho
          rcases append_inv ho with ⟨h, -⟩ | ⟨rfl, rfl⟩
          · exact hi o op h
          · rfl
        refine setupStates_conc l ?_ ?_ ?_ h
        rotate_left
        · exact hn
        · exact hi'
        refine ⟨?_, ?_, ?_, ?_⟩
        · intro o op ho
          simp only [List.length_append, List.length_singleton]
          rcases append_inv ho with ⟨h, -⟩ | ⟨rfl, rfl⟩
          · have := hp.post o op h; omega
          · exact Nat.lt_succ_self _
        · intro o op s ho _ _
          exact .init ho (hi' o op ho)
        · intro ν nd s hν
          simp only [hn] at hν
          cases hν
        · intro ν nd hν
          simp only [hn] at hν
          cases hν

/-- Concrete state sets have no aggregated ancestor: in every history (deaggregation included) a node
whose state set is marked concrete is made of a single operation whose state set it uses, and that
operation goes back to an initial set through such nodes only. -/
theorem C40_concrete_lineage {E : Env K} {init : List (SS K)} {σ0 σ : Core K} {n : ℕ}
    (h0 : setup E init = .ok σ0) (hr : runSteps E n σ0 = .ok σ) :
    (∀ (o : ℕ) op st, σ.ops[o]? = some op → σ.states[op.post]? = some st → st.concrete = true →
      Lineage σ o) ∧
    ∀ (ν : ℕ) nd st, σ.nodes[ν]? = some nd → σ.states[nd.state]? = some st → st.concrete = true →
      ∃ p q, nd.parents = [p] ∧ σ.ops[p]? = some q ∧ q.post = nd.state ∧ Lineage σ p := by
  have hinit : ConcInv σ0 := by
    simp only [setup, bind_ok, assert_ok, need_ok, pure_ok] at h0
    obtain ⟨_, -, σ1, h1, _, -, rfl⟩ := h0
    refine setupStates_conc init ⟨?_, ?_, ?_, ?_⟩ rfl ?_ h1 <;> intro o op <;> intros <;> simp_all
  have := (runSteps_micros n hr).conc hinit
  exact ⟨this.op, this.nd⟩

end Hylaa
