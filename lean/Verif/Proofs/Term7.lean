import Verif.Proofs.Term6

/-! Termination with deaggregation: taking operations from the waiting list; all rounds. -/

set_option linter.unusedSectionVars false

namespace Hylaa
open Spec
variable {K : Type} [Field K] [LinearOrder K] [IsStrictOrderedRing K] [JumpAt K]

/-- Only operations with the same path are aggregated. -/
def Env.OnePath (E : Env K) : Prop := ∀ s, E.set.strat = some s → s.samePath = true

theorem popWaiting_went {E : Env K} {ρ : ℕ → ℕ} (hs : E.OnePath) {σ σ' : Core K} {g : Gt} {A : List ℕ}
    (hI : TI E ρ σ g A) (hr : σ.rep = none) (hq : σ.queue = []) (h : popWaiting E σ = .ok σ') :
    ∃ nid b new M n, σ'.nodes[nid]? = some new ∧ new.left = false ∧ TI E ρ σ' (g.addNode nid b) [nid] ∧
      σ'.cur = some nid ∧ σ'.rep = none ∧ σ'.queue = [] ∧
      mW σ g = M + {tri (2 * b + 1) 0 0} ∧ mW σ' (g.addNode nid b) ≤ M ∧
      mN σ' (g.addNode nid b) = mN σ g + {tri (2 * b) n 0} := by
  have t0 : Tree E ρ σ g [] [] := hI.tree.mono (by simp) (by simp) (by simp)
  simp only [popWaiting, bind_ok, assert_ok, pure_ok] at h
  obtain ⟨items, hit, l0, hl0, l, hl, -, -, at_, -, ⟨σ1, nid⟩, hmk, rfl⟩ := h
  obtain ⟨i1, i2⟩ := waitItems_oids hit
  obtain ⟨s1, s2, s3, s4⟩ := stratPop_spec hl0
  obtain ⟨r1, r2, r3⟩ := restrictPop_spec hl
  generalize hids : (l.map fun w => w.oid) = ids at hmk
  have hsub : ids.Sublist σ.waiting := by
    rw [← i1, ← hids]; exact (r1.trans s1).map _
  have hnd : ids.Nodup := t0.waitNodup.sublist hsub
  obtain ⟨w0, hw0⟩ := List.exists_mem_of_ne_nil _ r2
  have hw0i : w0.oid ∈ ids := by rw [← hids]; exact List.mem_map_of_mem hw0
  -- all have the same budget
  have hb : ∀ o ∈ ids, g.hO o = g.hO w0.oid := by
    intro o ho
    rw [← hids] at ho
    obtain ⟨w, hw, rfl⟩ := List.mem_map.1 ho
    by_cases h2 : 2 ≤ l.length
    · cases hst : E.set.strat with
      | none =>
        obtain ⟨x, rfl⟩ := s3 hst
        have := r1.length_le
        simp at this; omega
      | some s =>
        obtain ⟨best, b1, b2⟩ := s4 s hst
        have par : ∀ w ∈ l, w.op.parent = best.op.parent := fun w hw =>
          ((compatible_eq (i2 best (s1.subset b1)) (i2 w (s1.subset (r1.subset hw))) t0.postInj
            (b2 w (r1.subset hw))).2 (hs s hst)).2
        have bud : ∀ w ∈ l, ∀ ν, best.op.parent = some ν → g.hO w.oid + 1 = g.hN ν := fun w hw ν hν => by
          obtain ⟨-, a1, -⟩ := waitItem_ok (i2 w (s1.subset (r1.subset hw)))
          exact (t0.opPar w.oid w.op ν a1 ((par w hw).trans hν)).2
        cases hbp : best.op.parent with
        | none => exact absurd ((par w hw).trans hbp) (r3 h2 w hw)
        | some ν =>
          have := bud w hw ν hbp
          have := bud w0 hw0 ν hbp
          omega
    · match l, h2, hw, hw0 with
      | [x], _, hw, hw0 =>
        simp only [List.mem_singleton] at hw hw0
        rw [hw, hw0]
      | [], _, hw, _ => simp at hw
      | _ :: _ :: _, h2, _, _ => simp at h2
  obtain ⟨sid, hN⟩ := makeNode_new hmk
  have tw := t0.unwait fun o => !ids.contains o
  have sub : ∀ a, Anchor { σ with waiting := σ.waiting.filter fun o => !ids.contains o } (ids ++ []) [] a →
      NLive σ a := by
    rintro a (ha | ⟨o, op, ho, h3⟩)
    · simp at ha
    · refine t0.live a (.inr ⟨o, op, .inl ?_, h3⟩)
      rcases ho with ho | ho
      · exact (List.mem_filter.1 ho).1
      · exact hsub.subset (by simpa using ho)
  have t1 := tw.node (b := g.hO w0.oid) (L' := []) hN hnd hb (fun o ho hc => by
      have := (List.mem_filter.1 hc).2
      simp [ho] at this) (by simp) (by simp) sub (fun a μ nd p ha hu hμ hp hpp => by
      obtain ⟨op, a1, a2⟩ := t0.wait p (hsub.subset hp)
      have := sub a ha μ nd p op hu hμ hpp a1
      rw [a2] at this; cases this)
  have e1 : σ1.queue = [] := hN.ctl.2.1.trans hq
  have e2 : σ1.rep = none := hN.ctl.2.2.trans hr
  have e4 : ({ σ1 with cur := some nid } : Core K).toOps = [] := by
    unfold Core.toOps; simp only [e2]
  refine ⟨nid, g.hO w0.oid, _, ((σ.waiting : Multiset ℕ).erase w0.oid).map fun o => tri (2 * g.hO o + 1) 0 0,
    ids.length, hN.node_new, rfl, ⟨?_, ?_, ?_, ?_, ?_⟩, rfl, e2, e1, ?_, ?_, ?_⟩
  · rw [e4]; exact t1.of_eq rfl rfl rfl rfl
  · intro ν hν
    cases hν
    simp
  · intro hcs
    rw [curState_some (σ := { σ1 with cur := some nid }) rfl hN.node_new rfl] at hcs
    cases hcs
  · show ∀ e ∈ σ1.queue, _
    rw [e1]; simp
  · show ∀ r, σ1.rep = some r → _
    rw [e2]; simp
  · unfold mW
    rw [← Multiset.map_singleton (fun o => tri (2 * g.hO o + 1) 0 0), ← Multiset.map_add]
    congr 1
    rw [add_comm, Multiset.singleton_add, Multiset.cons_erase]
    exact hsub.subset hw0i
  · have : mW ({ σ1 with cur := some nid } : Core K) (g.addNode nid (g.hO w0.oid)) =
        mW { σ with waiting := σ.waiting.filter fun o => !ids.contains o } g := hN.mW
    rw [this]
    unfold mW
    refine Multiset.map_le_map ?_
    refine (Multiset.le_iff_subset ?_).2 ?_
    · exact t0.waitNodup.filter _
    · intro x hx
      obtain ⟨x1, x2⟩ := List.mem_filter.1 (Multiset.mem_coe.1 hx)
      refine (Multiset.mem_erase_of_ne ?_).2 (Multiset.mem_coe.2 x1)
      rintro rfl
      simp [hw0i] at x2
  · have := hN.mN (b := g.hO w0.oid) tw
    exact this

theorem stepPop_dec {E : Env K} {ρ : ℕ → ℕ} (hρ : Ranked E ρ) (hs : E.OnePath) {σ σ1 σ' : Core K} {g : Gt}
    {A : List ℕ} (hI : TI E ρ σ g A) (hc : σ.cur = none) (hr : σ.rep = none) (hq : σ.queue = [])
    (h : stepPop E σ = .ok σ1)
    (h' : (if E.set.urgent && σ1.curState.isSome then checkGuards E σ1 else .ok σ1) = .ok σ') :
    ∃ g' A', TI E ρ σ' g' A' ∧ (mes E σ' g').IsDershowitzMannaLT (mes E σ g) := by
  simp only [stepPop, bind_ok, needSome_ok] at h
  obtain ⟨σ0, h1, c, hcc, st, hst, m, -, h⟩ := h
  obtain ⟨nid, b, new, M, n, a1, a2, I0, a3, a4, a5, a6, a7, a8⟩ := popWaiting_went hs hI hr hq h1
  have hcs := curState_some a3 a1 a2
  rw [hcs] at hcc; cases hcc
  set g0 := g.addNode nid b with hg0
  have hb : g0.hN nid = b := g.addNode_eq nid b
  have hAT : ∀ ν ∈ [nid], ν ∈ [nid] := fun _ h => h
  have e0 : σ0.toOps = [] := by unfold Core.toOps; rw [a4]
  have t0 : Tree E ρ σ0 g0 [] [nid] := by have := I0.tree; rw [e0] at this; exact this
  have hm : mes E σ g = M + mN σ g + {tri (2 * b + 1) 0 0} := by
    rw [mes_left g hc]
    have z1 : mQ σ g = 0 := by unfold mQ; rw [hq]; rfl
    have z2 : mR σ g = 0 := by unfold mR; rw [hr]
    rw [z1, z2, a6, add_zero, add_zero]; abel
  -- whatever follows
  have after : ∀ {τ : Core K} {g1 : Gt}, Fr [nid] b σ0 g0 τ g1 → Tree E ρ τ g1 [] [nid] → SameCtl σ0 τ ∨
      (τ.cur = none ∧ τ.queue = σ0.queue ∧ τ.rep = σ0.rep) → (τ.curState = none → τ.cur = none) →
      (τ.cur = none ∨ ∃ c st, τ.curState = some c ∧ c.1 = nid ∧ τ.states[c.2]? = some st) →
      ∃ g' A', TI E ρ τ g' A' ∧ (mes E τ g').IsDershowitzMannaLT (mes E σ g) := by
    intro τ g1 hf ht hctl hl hcur
    have hctl' : τ.queue = σ0.queue ∧ τ.rep = σ0.rep ∧ ∀ ν, τ.cur = some ν → ν ∈ [nid] := by
      rcases hctl with hctl | ⟨q1, q2, q3⟩
      · refine ⟨hctl.2.1, hctl.2.2, fun ν hν => ?_⟩
        rw [hctl.1, a3] at hν; cases hν; simp
      · exact ⟨q2, q3, fun ν hν => by rw [q1] at hν; cases hν⟩
    refine ⟨g1, [nid], I0.fr hAT hf (by rw [e0]; exact ht) hctl'.1 hctl'.2.1 hctl'.2.2 hl, MAdds.lt' hm ?_⟩
    have ad := I0.adds hAT hf hctl'.1 hctl'.2.1 0 0
    have y1 : mQ σ0 g0 = 0 := by unfold mQ; rw [a5]; rfl
    have y2 : mR σ0 g0 = 0 := by unfold mR; rw [a4]
    rw [y1, y2, add_zero, add_zero, a8] at ad
    have ad0 : MAdds (tri (2 * b + 1) 0 0) (M + mN σ g) (mW σ0 g0 + (mN σ g + {tri (2 * b) n 0})) :=
      MAdds.add (.of_le a7) (.one _ (tri_lt (.inl (by omega))))
    have ad1 := ad0.trans (ad.mono (le_of_lt (tri_lt (.inl (by omega)))))
    rcases hcur with hn | ⟨c, st, c1, c2, c3⟩
    · rw [mes_left g1 hn]; exact ad1
    · rw [mes_cur g1 c1 c3]
      refine ad1.trans (.one _ (tri_lt (.inl ?_)))
      rw [c2, hf.hN, hb]; omega
  have leave : ∀ {τ τ' : Core K}, Fr [nid] b σ0 g0 τ g0 → Tree E ρ τ g0 [] [nid] → SameCtl σ0 τ →
      τ.curState = some (nid, new.state) → τ.leftInvariant false = .ok τ' →
      (if E.set.urgent && τ'.curState.isSome then checkGuards E τ' else .ok τ') = .ok σ' →
      ∃ g' A', TI E ρ σ' g' A' ∧ (mes E σ' g').IsDershowitzMannaLT (mes E σ g) := by
    intro τ τ' hf ht hctl hcs1 hl hu
    obtain ⟨c', q1, q2, q3, q4, q5⟩ := leftInvariant_soft hl
    rw [hcs1] at q1; cases q1
    rw [curState_none q3] at hu
    simp only [Option.isSome_none, Bool.and_false, Bool.false_eq_true, if_false] at hu
    cases hu
    exact after (hf.trans (q2.fr b g0)) (ht.soft q2) (.inr ⟨q3, q4.trans hctl.2.1, q5.trans hctl.2.2⟩)
      (fun _ => q3) (.inl q3)
  split at h
  · exact leave (.refl _ _ _ _) t0 (.refl _) hcs h h'
  simp only [bind_ok] at h
  obtain ⟨⟨σ2, f⟩, h2, h⟩ := h
  obtain ⟨c', st', st2, q1, q2, s2, c2, q3, q4, -⟩ := intersectCur_soft h2
  rw [hcs] at q1; cases q1
  obtain ⟨c', q5, cs2⟩ := intersectCur_cur h2
  rw [hcs] at q5; cases q5
  have f2 := s2.fr b g0
  have t2 := t0.soft s2
  simp only at h
  split at h
  swap
  · exact leave f2 t2 c2 cs2 h h'
  obtain ⟨c', st5, st6, q6, q7, s6, c6, q8, -⟩ := approxCur_soft h
  have cs6 := (approxCur_cur h).trans cs2
  rw [cs2] at q6; cases q6
  replace f2 : Fr [nid] b σ0 g0 σ1 g0 := f2.trans ((s6.mono (by simp)).fr b g0)
  replace t2 := t2.soft s6
  replace c2 := c2.trans c6
  split at h'
  · rename_i hu
    simp only [Bool.and_eq_true] at hu
    obtain ⟨⟨g3, t3, f3, c3⟩, cs3, st3, d1, d2⟩ := checkGuards_went hρ t2 cs6 (by simp) q8
      (fun hu' => by rw [hu.1] at hu'; cases hu') h'
    have f3 : Fr [nid] (g0.hN nid) σ1 g0 σ' g3 := f3
    rw [hb] at f3
    exact after (f2.trans f3) t3 (.inl (c2.trans c3)) (fun hn => by rw [cs3] at hn; cases hn)
      (.inr ⟨_, st3, cs3, rfl, d1⟩)
  · cases h'
    exact after f2 t2 (.inl c2) (fun hn => by rw [cs6] at hn; cases hn) (.inr ⟨_, st6, cs6, rfl, q8⟩)

/-- Every round that is not finished makes the measure smaller. -/
theorem doStep_dec {E : Env K} {ρ : ℕ → ℕ} (hρ : Ranked E ρ) (hs : E.OnePath) {σ σ' : Core K} {g : Gt}
    {A : List ℕ} (hI : TI E ρ σ g A) (hf : σ.isFinished E = false) (h : doStep E σ = .ok σ') :
    ∃ g' A', TI E ρ σ' g' A' ∧ (mes E σ' g').IsDershowitzMannaLT (mes E σ g) := by
  unfold doStep at h
  rw [if_neg (by simp [hf])] at h
  split at h
  · obtain ⟨g', a, b⟩ := stepPost_dec hρ hI hf h
    exact ⟨g', A, a, b⟩
  rename_i hcs
  have hc : σ.cur = none := hI.curL (by simpa using hcs)
  split at h
  · obtain ⟨g', A', a, -, b⟩ := stepReplay_dec hI hc h
    exact ⟨g', A', a, b⟩
  rename_i hrep
  unfold Core.doingReplay at hrep
  simp only [Bool.or_eq_true, not_or, Bool.not_eq_true, Option.isSome_eq_false_iff, Option.isNone_iff_eq_none,
    Bool.not_eq_false', List.isEmpty_iff] at hrep
  obtain ⟨hr, hq⟩ := hrep
  simp only [bind_ok] at h
  obtain ⟨d, hd, h⟩ := h
  cases d with
  | some nid =>
    simp only [bind_ok] at h
    obtain ⟨σ1, h1, h2⟩ := h
    obtain ⟨g1, A1, I1, c1, d1⟩ := beginReplay_dec hI hc hr hq hd h1
    obtain ⟨g2, A2, I2, -, d2⟩ := stepReplay_dec I1 c1 h2
    exact ⟨g2, A2, I2, d2.trans d1⟩
  | none =>
    simp only [bind_ok] at h
    obtain ⟨σ1, h1, h2⟩ := h
    exact stepPop_dec hρ hs hI hc hr hq h1 h2

theorem TI.terminates {E : Env K} {ρ : ℕ → ℕ} (hρ : Ranked E ρ) (hs : E.OnePath) (M : Multiset Tri) :
    ∀ {σ : Core K} {g : Gt} {A : List ℕ}, TI E ρ σ g A → mes E σ g = M →
    ∃ n, ∀ σ', runSteps E n σ = .ok σ' → σ'.isFinished E = true := by
  induction M using (Multiset.wellFounded_isDershowitzMannaLT (α := Tri)).induction with
  | _ M ih =>
    intro σ g A hI hM
    cases hf : σ.isFinished E with
    | true => exact ⟨0, fun σ' h => by cases h; exact hf⟩
    | false =>
      cases hd : doStep E σ with
      | error e => exact ⟨1, fun σ' h => by simp only [runSteps, hd, bind_ok] at h; obtain ⟨_, h, -⟩ := h; cases h⟩
      | ok σ1 =>
        obtain ⟨g1, A1, I1, d1⟩ := doStep_dec hρ hs hI hf hd
        obtain ⟨n, hn⟩ := ih _ (hM ▸ d1) I1 rfl
        refine ⟨n + 1, fun σ' h => ?_⟩
        simp only [runSteps, hd, bind_ok] at h
        obtain ⟨σ2, h2, h3⟩ := h
        cases h2
        exact hn σ' h3

/-! ### The start -/

structure Start (σ : Core K) : Prop where
  nodes : σ.nodes = []
  cur : σ.cur = none
  queue : σ.queue = []
  rep : σ.rep = none
  wait : σ.waiting = List.range σ.ops.length
  len : σ.states.length = σ.ops.length
  ops : ∀ (o : ℕ) op, σ.ops[o]? = some op → op.parent = none ∧ op.child = none ∧ op.trans = none ∧ op.post = o

theorem setupStates_start {E : Env K} : ∀ (l : List (SS K)) {σ σ' : Core K}, Start σ →
    setupStates E σ l = .ok σ' → Start σ'
  | [], σ, σ', h, hr => by cases hr; exact h
  | st :: l, σ, σ', h, hr => by
    simp only [setupStates, bind_ok, needSome_ok] at hr
    obtain ⟨m, -, f, -, hr⟩ := hr
    split at hr
    · exact setupStates_start l h hr
    simp only [bind_ok] at hr
    obtain ⟨r, -, hr⟩ := hr
    split at hr
    · exact setupStates_start l h hr
    · refine setupStates_start l ?_ hr
      refine ⟨h.nodes, h.cur, h.queue, h.rep, ?_, ?_, ?_⟩
      · simp [h.wait, List.range_succ]
      · simp [h.len]
      · intro o op ho
        rcases concat_cases ho with ho | ⟨rfl, rfl⟩
        · exact h.ops o op ho
        · exact ⟨rfl, rfl, rfl, h.len⟩

theorem Start.ti {E : Env K} {σ : Core K} (h : Start σ) (ρ : ℕ → ℕ) : ∃ g, TI E ρ σ g [] := by
  let g : Gt := ⟨fun o => match σ.states[o]? with
    | some st => E.set.numSteps + st.stepIn + ρ st.mode
    | none => 0, fun _ => 0, ∅⟩
  have nn : ∀ (ν : ℕ) nd, σ.nodes[ν]? ≠ some nd := by intro ν nd; rw [h.nodes]; simp
  have e0 : σ.toOps = [] := by unfold Core.toOps; rw [h.rep]
  refine ⟨g, ?_, by rw [h.cur]; simp, fun _ => h.cur, by rw [h.queue]; simp, by rw [h.rep]; simp⟩
  rw [e0]
  refine ⟨?_, ?_, ?_, ?_, ?_, ?_, fun ν nd hn => (nn ν nd hn).elim, fun ν nd p hn => (nn ν nd hn).elim,
    fun ν nd hn => (nn ν nd hn).elim, fun ν nd o hn => (nn ν nd hn).elim, ?_, ?_, by simp, by simp, by simp, ?_, ?_⟩
  · intro o op ν h1 h2
    rw [(h.ops o op h1).1] at h2; cases h2
  · intro o op h1
    have hlt : o < σ.states.length := by rw [h.len]; exact lt_of_getElem? h1
    rw [(h.ops o op h1).2.2.2]
    refine ⟨_, List.getElem?_eq_getElem hlt, fun _ => ?_, fun _ => ?_⟩
    · simp only [g, List.getElem?_eq_getElem hlt]; omega
    · simp only [g, List.getElem?_eq_getElem hlt]; omega
  · intro _ o op ti t h1 h2
    rw [(h.ops o op h1).2.2.1] at h2; cases h2
  · intro _ o op h1 h2
    exact absurd (h.ops o op h1).1 h2
  · intro o op c h1 h2
    rw [(h.ops o op h1).2.1] at h2; cases h2
  · intro o o' op op' h1 h2 he
    rw [(h.ops o op h1).2.2.2, (h.ops o' op' h2).2.2.2] at he
    exact he
  · intro o ho
    rw [h.wait, List.mem_range] at ho
    exact ⟨_, List.getElem?_eq_getElem ho, (h.ops o _ (List.getElem?_eq_getElem ho)).2.1⟩
  · rw [h.wait]; exact List.nodup_range
  · rintro a (ha | ⟨o, op, -, h1, h2⟩)
    · simp at ha
    · rw [(h.ops o op h1).1] at h2; cases h2
  · intro ν hν
    exact absurd hν (Finset.notMem_empty ν)

theorem setup_start {E : Env K} {init : List (SS K)} {σ : Core K} (h : setup E init = .ok σ) : Start σ := by
  simp only [setup, bind_ok, assert_ok, pure_ok] at h
  obtain ⟨-, -, σ1, h1, -, -, rfl⟩ := h
  exact setupStates_start init ⟨rfl, rfl, rfl, rfl, rfl, rfl, by simp⟩ h1

end Hylaa
