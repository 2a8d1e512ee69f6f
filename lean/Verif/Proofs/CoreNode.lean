import Verif.Proofs.CoreStep

/-! The invariant when a node is made, and when one is finished. -/

set_option linter.unusedSectionVars false

namespace Hylaa
open Spec
variable {K : Type} [Field K] [LinearOrder K] [IsStrictOrderedRing K] [JumpAt K]

/-- A held operation is put on the waiting list. -/
theorem Body.toWait {E : Env K} {X0 : ℕ → (ℕ → K) → Prop} {σ : Core K} {gh : Ghost K} {o : ℕ}
    {L A : List ℕ} (h : Body E X0 σ gh (o :: L) A) {op : OpTr K} (ho : σ.ops[o]? = some op)
    (hc : op.child = none) (hw : o ∉ σ.waiting)
    (he : ∀ st m, σ.states[op.post]? = some st → E.ha.modes[gh.M o]? = some m → m.isError = true →
      E.deaggOn ∧ st.concrete = false) :
    Body E X0 { σ with waiting := σ.waiting ++ [o] } gh L A := by
  have hm : ∀ p, p ∈ σ.waiting ++ [o] ↔ p ∈ σ.waiting ∨ p = o := by simp
  exact { h with
    wait := fun p hp => by
      rcases (hm p).1 hp with hp | rfl
      · exact h.wait p hp
      · exact ⟨op, ho, hc⟩
    waitNodup := by
      show (σ.waiting ++ [o]).Nodup
      rw [List.nodup_append]
      refine ⟨h.waitNodup, by simp, ?_⟩
      intro a ha b hb
      simp only [List.mem_singleton] at hb
      subst hb
      exact fun e => hw (e ▸ ha)
    held := fun p hp => h.held p (List.mem_cons_of_mem _ hp)
    waitErr := fun p hp op' st m hop hs hmd hme => by
      rcases (hm p).1 hp with hp | rfl
      · exact h.waitErr p hp op' st m hop hs hmd hme
      · have : σ.ops[p]? = some op' := hop
        rw [ho] at this; cases this
        exact he st m hs hmd hme
    live := ⟨fun p hp => by
        rcases (hm p).1 hp with hp | rfl
        · exact h.live.1 p hp
        · exact h.live.2.1 p (by simp),
      fun p hp => h.live.2.1 p (List.mem_cons_of_mem _ hp), h.live.2.2⟩
    pend := fun B hT hb => by
      obtain ⟨p, x, n, h1, h2, h3⟩ := h.pend B hT hb
      refine ⟨p, x, n, h1, h2, ?_⟩
      rcases h3 with h3 | h3 | h3
      · exact .inl ((hm p).2 (.inl h3))
      · rcases List.mem_cons.1 h3 with rfl | h3
        · exact .inl ((hm p).2 (.inr rfl))
        · exact .inr (.inl h3)
      · exact .inr (.inr h3) }

/-- Waiting operations are taken off the list. -/
theorem Body.take {E : Env K} {X0 : ℕ → (ℕ → K) → Prop} {σ : Core K} {gh : Ghost K}
    {L A : List ℕ} (h : Body E X0 σ gh L A) {ids : List ℕ} (hi : ∀ o ∈ ids, o ∈ σ.waiting) :
    Body E X0 { σ with waiting := σ.waiting.filter fun o => !ids.contains o } gh (ids ++ L) A := by
  have hm : ∀ p, p ∈ (σ.waiting.filter fun o => !ids.contains o) ↔ p ∈ σ.waiting ∧ p ∉ ids := by
    intro p; simp [List.mem_filter]
  exact { h with
    wait := fun p hp => h.wait p ((hm p).1 hp).1
    waitNodup := h.waitNodup.filter _
    held := fun p hp => by
      rcases List.mem_append.1 hp with hp | hp
      · obtain ⟨op, k, -⟩ := h.wait p (hi p hp); exact ⟨op, k⟩
      · exact h.held p hp
    waitErr := fun p hp op' st m hop hs hmd hme => h.waitErr p ((hm p).1 hp).1 op' st m hop hs hmd hme
    live := ⟨fun p hp => h.live.1 p ((hm p).1 hp).1,
      fun p hp => by
        rcases List.mem_append.1 hp with hp | hp
        · exact h.live.1 p (hi p hp)
        · exact h.live.2.1 p hp, h.live.2.2⟩
    pend := fun B hT hb => by
      obtain ⟨p, x, n, h1, h2, h3⟩ := h.pend B hT hb
      refine ⟨p, x, n, h1, h2, ?_⟩
      rcases h3 with h3 | h3 | h3
      · by_cases hp : p ∈ ids
        · exact .inr (.inl (by simp [hp]))
        · exact .inl ((hm p).2 ⟨h3, hp⟩)
      · exact .inr (.inl (by simp [h3]))
      · exact .inr (.inr h3) }

/-- An active node all of whose jumps are recorded is finished. -/
theorem Body.finish {E : Env K} {X0 : ℕ → (ℕ → K) → Prop} {σ : Core K} {gh : Ghost K} {ν : ℕ}
    {L A : List ℕ} (h : Body E X0 σ gh L (ν :: A)) {nd : Node} (hν : σ.nodes[ν]? = some nd)
    (hl : LeftLast nd.ops) (hd : Done E gh σ.ops ν nd fun _ _ => True)
    (hp : ∀ o, NOp.tr o ∈ nd.ops → o ∈ σ.waiting ∨ o ∈ L) : Body E X0 σ gh L A := by
  exact { h with
    done := fun μ md hμ h1 => by
      by_cases he : μ = ν
      · subst he; rw [hν] at h1; cases h1; exact ⟨hl, hd⟩
      · exact h.done μ md (by simp [he, hμ]) h1
    live := ⟨h.live.1, h.live.2.1, fun μ hμ => h.live.2.2 μ (List.mem_cons_of_mem _ hμ)⟩
    pend := fun B hT hb => by
      obtain ⟨p, x, n, h1, h2, h3⟩ := h.pend B hT hb
      rcases h3 with h3 | h3 | ⟨μ, md, h3, h4, h5⟩
      · exact ⟨p, x, n, h1, h2, .inl h3⟩
      · exact ⟨p, x, n, h1, h2, .inr (.inl h3)⟩
      · rcases List.mem_cons.1 h3 with rfl | h3
        · rw [hν] at h4; cases h4
          obtain ⟨m, e1, e2⟩ := h.ndErr μ nd hν
          obtain ⟨op0, -, hM, -⟩ := h.ndPar μ nd p hν h5
          rcases hT.next h2 with ⟨_, q1, q2⟩ | ⟨k, ti, j, y, q1, q2, q3⟩
          · replace q1 : E.ha.modes[gh.M p]? = _ := q1
            rw [hM] at q1
            have : m = _ := Option.some.inj (e1.symm.trans q1)
            subst this
            rw [e2] at q2; cases q2
          · rw [hM] at q1
            obtain ⟨o, op, r1, r2, r3, r4, r5⟩ := hd x n k ti j y ⟨p, h5, h1⟩ q1 q2 trivial
            obtain ⟨op', s1, s2⟩ := h.ndOps μ nd o hν r1
            rw [r2] at s1; cases s1
            obtain ⟨ti', t, s3, s4, s5, -⟩ := h.opTrans o op μ r2 s2
            rw [r3] at s3; cases s3
            have hj : j = gh.M o := by
              obtain ⟨-, t', -, -, -, -, -, -, -, -, u1, -, -, u2, -⟩ := r5
              have : t' = t := Option.some.inj (u1.symm.trans s4)
              rw [u2, this, s5]
            have q2' : n + k ≤ E.set.numSteps := q2
            refine ⟨o, y, n + op.step, ?_, ?_, ?_⟩
            · rw [h.exact o op μ nd ti r2 s2 hν r3]
              exact ⟨x, n, ⟨p, h5, h1⟩, hj ▸ r5, rfl, by omega⟩
            · rw [← hj]; exact hT.anti q3 (by omega)
            · rcases hp o r1 with hp | hp
              · exact .inl hp
              · exact .inr (.inl hp)
        · exact ⟨p, x, n, h1, h2, .inr (.inr ⟨μ, md, h3, h4, h5⟩)⟩ }

/-! ### Making a node -/

theorem setChild_get {c : ℕ} : ∀ (ids : List ℕ) (l : List (OpTr K)) (o : ℕ),
    (ids.foldl (fun l o => l.modify o fun x => { x with child := some c }) l)[o]? =
      (l[o]?).map fun x => if o ∈ ids then { x with child := some c } else x
  | [], l, o => by simp
  | i :: ids, l, o => by
    rw [List.foldl_cons, setChild_get ids, List.getElem?_modify]
    cases l[o]? with
    | none => by_cases h : i = o <;> simp [h]
    | some x =>
      by_cases h : i = o
      · subst h
        by_cases h2 : i ∈ ids <;> simp [h2]
      · have h' : o ≠ i := fun e => h e.symm
        by_cases h2 : o ∈ ids <;> simp [h, h', h2]

/-- Nodes whose state must stay meaningful: those below which something is pending. -/
def Anchor (σ : Core K) (L A : List ℕ) (a : ℕ) : Prop :=
  a ∈ A ∨ ∃ o op, (o ∈ σ.waiting ∨ o ∈ L) ∧ σ.ops[o]? = some op ∧ op.parent = some a

/-- What is needed of the operations that become a node. -/
structure CanJoin (E : Env K) (σ : Core K) (gh : Ghost K) (L A : List ℕ) (ids : List ℕ) (i : ℕ) :
    Prop where
  ne : ids ≠ []
  nodup : ids.Nodup
  mode : ∃ m, E.ha.modes[i]? = some m ∧ m.isError = false
  ops : ∀ p ∈ ids, ∃ op, σ.ops[p]? = some op ∧ gh.M p = i ∧ FreshOp σ op ∧
    (2 ≤ ids.length → op.parent ≠ none)
  same : E.deaggOn → ∀ p ∈ ids, ∀ q ∈ ids, ∀ op oq, σ.ops[p]? = some op → σ.ops[q]? = some oq →
    op.parent = oq.parent
  notWait : ∀ p ∈ ids, p ∉ σ.waiting
  apart : ∀ a μ nd p, Anchor σ (ids ++ L) A a → Up σ.nodes σ.ops a μ → σ.nodes[μ]? = some nd →
    p ∈ ids → p ∉ nd.parents

/-- The pure heap part of `make_node`. -/
theorem Body.addNode {E : Env K} {X0 : ℕ → (ℕ → K) → Prop} {σ : Core K} {gh : Ghost K}
    {L A ids : List ℕ} (h : Body E X0 σ gh (ids ++ L) A) {i : ℕ} (hj : CanJoin E σ gh L A ids i)
    {at_ : Option AggType} (hat : ∀ a, at_ = some a → aggTypeOf E = .ok a)
    {ss : List (SS K)} {sid : ℕ} {st : SS K} (hs1 : ss[sid]? = some st)
    (hs2 : ∀ k < σ.states.length, k ≠ sid → ss[k]? = σ.states[k]?)
    (hs3 : σ.states.length ≤ ss.length)
    (hs4 : (2 ≤ ids.length ∧ σ.states.length ≤ sid) ∨
      ∃ p op, ids = [p] ∧ σ.ops[p]? = some op ∧ sid = op.post)
    (hmode : st.mode = i) {rts : List ℕ} :
    Body E X0 { σ with states := ss, roots := rts,
                       nodes := σ.nodes ++ [{ state := sid, parents := ids, agg := at_ }],
                       ops := ids.foldl (fun l o => l.modify o fun x =>
                         { x with child := some σ.nodes.length }) σ.ops }
      { gh with MN := Function.update gh.MN σ.nodes.length i } L (σ.nodes.length :: A) := by
  set N := σ.nodes.length with hN
  set new : Node := { state := sid, parents := ids, agg := at_ } with hnew
  set ops' := ids.foldl (fun l o => l.modify o fun x => { x with child := some N }) σ.ops with hops
  set gh' : Ghost K := { gh with MN := Function.update gh.MN N i } with hgh
  have hget : ∀ (o : ℕ) op, ops'[o]? = some op → ∃ op0, σ.ops[o]? = some op0 ∧
      (o ∈ ids → op = { op0 with child := some N }) ∧ (o ∉ ids → op = op0) ∧
      op.step = op0.step ∧ op.parent = op0.parent ∧ op.trans = op0.trans ∧ op.post = op0.post := by
    intro o op ho
    rw [hops, setChild_get] at ho
    cases hq : σ.ops[o]? with
    | none => rw [hq] at ho; cases ho
    | some op0 =>
      rw [hq] at ho
      simp only [Option.map_some, Option.some.injEq] at ho
      refine ⟨op0, rfl, ?_⟩
      by_cases hi : o ∈ ids
      · rw [if_pos hi] at ho; subst ho
        exact ⟨fun _ => rfl, fun hc => absurd hi hc, rfl, rfl, rfl, rfl⟩
      · rw [if_neg hi] at ho; subst ho
        exact ⟨fun hc => absurd hc hi, fun _ => rfl, rfl, rfl, rfl, rfl⟩
  have hput : ∀ (o : ℕ) op0, σ.ops[o]? = some op0 → ∃ op, ops'[o]? = some op ∧
      (o ∈ ids → op = { op0 with child := some N }) ∧ (o ∉ ids → op = op0) ∧
      op.step = op0.step ∧ op.parent = op0.parent ∧ op.trans = op0.trans ∧ op.post = op0.post := by
    intro o op0 ho
    have : ops'[o]? = some (if o ∈ ids then { op0 with child := some N } else op0) := by
      rw [hops, setChild_get, ho]; rfl
    obtain ⟨q, h1, h2⟩ := hget o _ this
    rw [ho] at h1; cases h1
    exact ⟨_, this, h2⟩
  have hMN : ∀ ν < N, gh'.MN ν = gh.MN ν := fun ν hν => Function.update_of_ne (by omega) _ _
  have hMN' : gh'.MN N = i := Function.update_self _ _ _
  have hfr : ∀ (o : ℕ) op op0, (o ∈ ids → op = { op0 with child := some N }) →
      (o ∉ ids → op = op0) → o ∉ ids →
      FreshOp { σ with states := ss, roots := rts, nodes := σ.nodes ++ [new], ops := ops' } op →
      σ.ops[o]? = some op0 → FreshOp σ op0 := by
    intro o op op0 _ h2 hni hf h0
    rw [h2 hni] at hf
    rcases hf with hf | ⟨c, md, e1, e2, e3⟩
    · exact .inl hf
    · obtain ⟨cd, k1, -⟩ := h.opChild o op0 c h0 e1
      have := append_keep (a := new) k1
      have e2' : (σ.nodes ++ [new])[c]? = some md := e2
      rw [e2'] at this; cases this
      exact .inr ⟨c, md, e1, k1, e3⟩
  have hfid : ∀ (o : ℕ) op, ops'[o]? = some op → o ∈ ids →
      FreshOp { σ with states := ss, roots := rts, nodes := σ.nodes ++ [new], ops := ops' } op →
      2 ≤ ids.length := by
    intro o op ho hi hf
    obtain ⟨op0, h1, h2, -⟩ := hget o op ho
    rw [h2 hi] at hf
    rcases hf with hf | ⟨c, md, e1, e2, e3⟩
    · cases hf
    · simp only [Option.some.injEq] at e1
      subst e1
      have e2' : (σ.nodes ++ [new])[N]? = some md := e2
      rw [hN, List.getElem?_concat_length] at e2'
      cases e2'
      exact e3
  have hparlt : ∀ (o : ℕ) op μ, σ.ops[o]? = some op → op.parent = some μ → μ < N := by
    intro o op μ h1 h2
    obtain ⟨md, k, -⟩ := h.opPar o op μ h1 h2
    exact lt_of_getElem? k
  have hup : ∀ {a b}, a < N → Up (σ.nodes ++ [new]) ops' a b → Up σ.nodes σ.ops a b ∧ b < N := by
    intro a b ha hu
    induction hu with
    | refl => exact ⟨.refl _, ha⟩
    | @step μ nd p op μ' _ h1 h2 h3 h4 ih =>
      rcases append_inv h1 with ⟨h1, -⟩ | ⟨rfl, -⟩
      · obtain ⟨op0, k1, -, -, -, k2, -⟩ := hget _ _ h3
        rw [k2] at h4
        exact ⟨.step ih.1 h1 h2 k1 h4, hparlt _ _ _ k1 h4⟩
      · exact absurd ih.2 (by omega)
  have hlive : ∀ a < N, Anchor σ (ids ++ L) A a → NLive σ a →
      NLive { σ with states := ss, roots := rts, nodes := σ.nodes ++ [new], ops := ops' } a := by
    intro a ha hanc hl μ md p op h1 h2 h3 h4
    obtain ⟨u1, u2⟩ := hup ha h1
    rcases append_inv h2 with ⟨h2, -⟩ | ⟨rfl, -⟩
    · obtain ⟨op0, k1, -, k2, -⟩ := hget p op h4
      rw [k2 fun hp => hj.apart a μ md p hanc u1 h2 hp h3]
      exact hl μ md p op0 u1 h2 h3 k1
    · exact absurd u2 (by omega)
  have hpn : ∀ p ∈ ids, p < σ.ops.length := by
    intro p hp
    obtain ⟨op, k, -⟩ := hj.ops p hp
    exact lt_of_getElem? k
  have hsidne : ∀ (μ : ℕ) md, σ.nodes[μ]? = some md → md.state ≠ sid := by
    intro μ md hμ
    obtain ⟨s, k, -⟩ := h.ndSt μ md hμ
    have := lt_of_getElem? k
    rcases hs4 with ⟨-, hs4⟩ | ⟨p, op, e1, e2, rfl⟩
    · omega
    · obtain ⟨op', k1, -, k3, -⟩ := hj.ops p (by rw [e1]; simp)
      rw [e2] at k1; cases k1
      exact h.freshNe p op μ md e2 k3 hμ
  exact { h with
    opPost := fun o op ho => by
      obtain ⟨op0, k1, -, -, -, -, -, k2⟩ := hget o op ho
      have := h.opPost o op0 k1
      show op.post < ss.length
      omega
    opPar := fun o op μ ho hp => by
      obtain ⟨op0, k1, -, -, -, k2, -⟩ := hget o op ho
      obtain ⟨md, q1, q2⟩ := h.opPar o op0 μ k1 (k2 ▸ hp)
      exact ⟨md, append_keep q1, q2⟩
    opChild := fun o op c ho hc => by
      obtain ⟨op0, k1, k2, k3, -⟩ := hget o op ho
      by_cases hi : o ∈ ids
      · rw [k2 hi] at hc
        simp only [Option.some.injEq] at hc
        subst hc
        exact ⟨new, List.getElem?_concat_length, hi⟩
      · rw [k3 hi] at hc
        obtain ⟨md, q1, q2⟩ := h.opChild o op0 c k1 hc
        exact ⟨md, append_keep q1, q2⟩
    opTrans := fun o op μ ho hp => by
      obtain ⟨op0, k1, -, -, -, k2, k3, -⟩ := hget o op ho
      obtain ⟨md, q1, -⟩ := h.opPar o op0 μ k1 (k2 ▸ hp)
      rw [k3, hMN μ (lt_of_getElem? q1)]; exact h.opTrans o op0 μ k1 (k2 ▸ hp)
    ndSt := fun μ md hμ => by
      rcases append_inv hμ with ⟨hμ, hlt⟩ | ⟨rfl, rfl⟩
      · obtain ⟨s, k1, k2⟩ := h.ndSt μ md hμ
        exact ⟨s, (hs2 _ (lt_of_getElem? k1) (hsidne μ md hμ)).trans k1, by rw [hMN μ hlt]; exact k2⟩
      · exact ⟨st, hs1, by rw [hMN', hmode]⟩
    ndErr := fun μ md hμ => by
      rcases append_inv hμ with ⟨hμ, hlt⟩ | ⟨rfl, rfl⟩
      · rw [hMN μ hlt]; exact h.ndErr μ md hμ
      · rw [hMN']; exact hj.mode
    ndPar := fun μ md p hμ hp => by
      rcases append_inv hμ with ⟨hμ, hlt⟩ | ⟨rfl, rfl⟩
      · obtain ⟨op0, k1, k2, k3⟩ := h.ndPar μ md p hμ hp
        obtain ⟨op, q1, -, -, -, q2, -⟩ := hput p op0 k1
        exact ⟨op, q1, by rw [hMN μ hlt]; exact k2, by rw [q2]; exact k3⟩
      · obtain ⟨op0, k1, k2, -⟩ := hj.ops p hp
        obtain ⟨op, q1, -, -, -, q2, -⟩ := hput p op0 k1
        exact ⟨op, q1, by rw [hMN']; exact k2, fun a ha => hparlt p op0 a k1 (by rw [← q2]; exact ha)⟩
    ndMany := fun μ md p op hμ hl hp ho => by
      obtain ⟨op0, k1, -, -, -, k2, -⟩ := hget p op ho
      rw [k2]
      rcases append_inv hμ with ⟨hμ, hlt⟩ | ⟨rfl, rfl⟩
      · exact h.ndMany μ md p op0 hμ hl hp k1
      · obtain ⟨op1, q1, -, -, q4⟩ := hj.ops p hp
        rw [k1] at q1; cases q1
        exact q4 hl
    ndSame := fun hd μ md p q op oq hμ hp hq ho ho' => by
      obtain ⟨op0, k1, -, -, -, k2, -⟩ := hget p op ho
      obtain ⟨oq0, k1', -, -, -, k2', -⟩ := hget q oq ho'
      rw [k2, k2']
      rcases append_inv hμ with ⟨hμ, hlt⟩ | ⟨rfl, rfl⟩
      · exact h.ndSame hd μ md p q op0 oq0 hμ hp hq k1 k1'
      · exact hj.same hd p hp q hq op0 oq0 k1 k1'
    ndNodup := fun μ md hμ => by
      rcases append_inv hμ with ⟨hμ, hlt⟩ | ⟨rfl, rfl⟩
      · exact h.ndNodup μ md hμ
      · exact hj.nodup
    ndOps := fun μ md o hμ ho => by
      rcases append_inv hμ with ⟨hμ, hlt⟩ | ⟨rfl, rfl⟩
      · obtain ⟨op0, k1, k2⟩ := h.ndOps μ md o hμ ho
        obtain ⟨op, q1, -, -, -, q2, -⟩ := hput o op0 k1
        exact ⟨op, q1, by rw [q2]; exact k2⟩
      · simp [hnew] at ho
    ndAgg := fun μ md ag hμ ha => by
      rcases append_inv hμ with ⟨hμ, hlt⟩ | ⟨rfl, rfl⟩
      · exact h.ndAgg μ md ag hμ ha
      · exact hat ag ha
    ndOrder := fun μ md hμ => by
      rcases append_inv hμ with ⟨hμ, hlt⟩ | ⟨rfl, rfl⟩
      · have := h.ndOrder μ md hμ
        unfold OrderOk at this ⊢
        refine this.imp ?_
        intro a b hab s ix sb o op e1 e2 ho
        obtain ⟨op0, k1, -, -, k2, -⟩ := hget o op ho
        rw [k2]; exact hab s ix sb o op0 e1 e2 k1
      · exact List.Pairwise.nil
    postInj := fun o o' op op' ho ho' he => by
      obtain ⟨op0, k1, -, -, -, -, -, k2⟩ := hget o op ho
      obtain ⟨op0', k1', -, -, -, -, -, k2'⟩ := hget o' op' ho'
      exact h.postInj o o' op0 op0' k1 k1' (by rw [← k2, ← k2']; exact he)
    stInj := fun μ ρ md rd hμ hρ he => by
      rcases append_inv hμ with ⟨hμ, hlt⟩ | ⟨rfl, rfl⟩ <;> rcases append_inv hρ with ⟨hρ, hlt'⟩ | ⟨rfl, rfl⟩
      · exact h.stInj μ ρ md rd hμ hρ he
      · exact absurd he (hsidne μ md hμ)
      · exact absurd he.symm (hsidne ρ rd hρ)
      · rfl
    freshNe := fun o op μ md ho hf hμ => by
      obtain ⟨op0, k1, k2, k3, -, -, -, k4⟩ := hget o op ho
      rw [k4]
      have hlt := h.opPost o op0 k1
      rcases append_inv hμ with ⟨hμ, -⟩ | ⟨rfl, rfl⟩
      · by_cases hi : o ∈ ids
        · obtain ⟨op1, q1, -, q3, -⟩ := hj.ops o hi
          rw [k1] at q1; cases q1
          exact h.freshNe o op0 μ md k1 q3 hμ
        · exact h.freshNe o op0 μ md k1 (hfr o op op0 k2 k3 hi hf k1) hμ
      · show sid ≠ op0.post
        rcases hs4 with ⟨-, hs4⟩ | ⟨p, pp, e1, e2, e3⟩
        · omega
        · by_cases hi : o ∈ ids
          · have := hfid o op ho hi hf
            rw [e1] at this; simp at this
          · intro hc
            have := h.postInj p o pp op0 e2 k1 (by omega)
            subst this
            exact hi (by rw [e1]; simp)
    fresh := fun o op ho hf => by
      obtain ⟨op0, k1, k2, k3, -, k5, -, k4⟩ := hget o op ho
      have hlt := h.opPost o op0 k1
      have hf0 : FreshOp σ op0 := by
        by_cases hi : o ∈ ids
        · obtain ⟨op1, q1, -, q3, -⟩ := hj.ops o hi
          rw [k1] at q1; cases q1; exact q3
        · exact hfr o op op0 k2 k3 hi hf k1
      obtain ⟨s, q1, q2⟩ := h.fresh o op0 k1 hf0
      refine ⟨s, ?_, q2.zero, q2.mode, q2.time, ?_, ?_, q2.lo, by rw [k5]; exact q2.initMode⟩
      · rw [k4]
        refine (hs2 _ hlt ?_).trans q1
        rcases hs4 with ⟨-, hs4⟩ | ⟨p, pp, e1, e2, e3⟩
        · omega
        · by_cases hi : o ∈ ids
          · have := hfid o op ho hi hf
            rw [e1] at this; simp at this
          · intro hc
            have := h.postInj p o pp op0 e2 k1 (by omega)
            subst this
            exact hi (by rw [e1]; simp)
      · rw [k5]; exact q2.init
      · rw [k5]; exact q2.entry
    exact := fun o op μ md tj ho hp hμ ht y n' => by
      obtain ⟨op0, k1, -, -, k2, k3, k4, -⟩ := hget o op ho
      rw [k3] at hp
      have hlt := hparlt o op0 μ k1 hp
      rcases append_inv hμ with ⟨hμ, -⟩ | ⟨rfl, -⟩
      · have := h.exact o op0 μ md tj k1 hp hμ (by rw [← k4]; exact ht) y n'
        rw [hMN μ hlt, k2]; exact this
      · omega
    done := fun μ md hμA hμ => by
      rcases append_inv hμ with ⟨hμ, hlt⟩ | ⟨rfl, -⟩
      · obtain ⟨h1, h2⟩ := h.done μ md (fun hc => hμA (by simp [hc])) hμ
        refine ⟨h1, ?_⟩
        intro x n k tj j y hgp hjp hb _
        rw [hMN μ hlt] at hjp ⊢
        obtain ⟨o, op0, q1, q2, q3, q4, q5⟩ := h2 x n k tj j y hgp hjp hb trivial
        obtain ⟨op, r1, -, -, r2, -, r3, -⟩ := hput o op0 q2
        exact ⟨o, op, q1, r1, by rw [r3]; exact q3, by rw [r2]; exact q4, by rw [r2]; exact q5⟩
      · exact absurd List.mem_cons_self hμA
    wait := fun o ho => by
      obtain ⟨op0, k1, k2⟩ := h.wait o ho
      obtain ⟨op, q1, -, q2, -⟩ := hput o op0 k1
      refine ⟨op, q1, ?_⟩
      rw [q2 fun hi => hj.notWait o hi ho]; exact k2
    held := fun o ho => by
      obtain ⟨op0, k1⟩ := h.held o (by simp [ho])
      obtain ⟨op, q1, -⟩ := hput o op0 k1
      exact ⟨op, q1⟩
    waitErr := fun o ho op s m hop hs hm he => by
      obtain ⟨op0, k1, -, -, -, -, -, k2⟩ := hget o op hop
      have hni : o ∉ ids := fun hi => hj.notWait o hi ho
      have hs' : ss[op0.post]? = some s := by rw [← k2]; exact hs
      rw [hs2 _ (h.opPost o op0 k1)] at hs'
      · exact h.waitErr o ho op0 s m k1 hs' hm he
      · have := h.opPost o op0 k1
        rcases hs4 with ⟨-, hs4⟩ | ⟨p, pp, e1, e2, e3⟩
        · omega
        · intro hc
          have := h.postInj p o pp op0 e2 k1 (by omega)
          subst this
          exact hni (by rw [e1]; simp)
    live := by
      refine ⟨fun o ho op μ h1 h2 => ?_, fun o ho op μ h1 h2 => ?_, fun μ hμ => ?_⟩
      · obtain ⟨op0, k1, -, -, -, k2, -⟩ := hget o op h1
        rw [k2] at h2
        exact hlive μ (hparlt o op0 μ k1 h2) (.inr ⟨o, op0, .inl ho, k1, h2⟩) (h.live.1 o ho op0 μ k1 h2)
      · obtain ⟨op0, k1, -, -, -, k2, -⟩ := hget o op h1
        rw [k2] at h2
        exact hlive μ (hparlt o op0 μ k1 h2) (.inr ⟨o, op0, .inr (by simp [ho]), k1, h2⟩)
          (h.live.2.1 o (by simp [ho]) op0 μ k1 h2)
      · by_cases hl : μ < N
        · have hμ' : μ ∈ A := by
            rcases List.mem_cons.1 hμ with rfl | hμ
            · omega
            · exact hμ
          exact hlive μ hl (.inl hμ') (h.live.2.2 μ hμ')
        · -- the new node, or a position out of range
          intro b md p op hu h2 h3 h4
          have key : ∀ b, Up (σ.nodes ++ [new]) ops' μ b → b = μ ∨
              ∃ q oq a, q ∈ ids ∧ σ.ops[q]? = some oq ∧ oq.parent = some a ∧
                Up (σ.nodes ++ [new]) ops' a b := by
            intro b hb
            induction hb with
            | refl => exact .inl rfl
            | step _ q1 q2 q3 q4 ih =>
              rcases ih with rfl | ⟨q, oq, a, r1, r2, r3, r4⟩
              · rcases append_inv q1 with ⟨q1, hlt⟩ | ⟨-, rfl⟩
                · exact absurd hlt hl
                · obtain ⟨op0, k1, -, -, -, k2, -⟩ := hget _ _ q3
                  rw [k2] at q4
                  exact .inr ⟨_, op0, _, q2, k1, q4, .refl _⟩
              · exact .inr ⟨q, oq, a, r1, r2, r3, .step r4 q1 q2 q3 q4⟩
          rcases key b hu with rfl | ⟨q, oq, a, r1, r2, r3, r4⟩
          · rcases append_inv h2 with ⟨h2, hlt⟩ | ⟨rfl, rfl⟩
            · exact absurd hlt hl
            · obtain ⟨op0, -, k2, -⟩ := hget p op h4
              rw [k2 h3]
          · exact hlive a (hparlt q oq a r2 r3) (.inr ⟨q, oq, .inr (by simp [r1]), r2, r3⟩)
              (h.live.2.1 q (by simp [r1]) oq a r2 r3) b md p op r4 h2 h3 h4
    pend := fun B hT hb => by
      obtain ⟨o, x, n, h1, h2, h3⟩ := h.pend B hT hb
      refine ⟨o, x, n, h1, h2, ?_⟩
      rcases h3 with h3 | h3 | ⟨μ, md0, h3, h4, h5⟩
      · exact .inl h3
      · rcases List.mem_append.1 h3 with h3 | h3
        · exact .inr (.inr ⟨N, new, by simp, List.getElem?_concat_length, h3⟩)
        · exact .inr (.inl h3)
      · exact .inr (.inr ⟨μ, md0, by simp [h3], append_keep h4, h5⟩) }

theorem NodeSt.obj {E : Env K} {gh : Ghost K} {σ : Core K} {ν : ℕ} {nd : Node} {st : SS K} {c : ℕ}
    (h : NodeSt E gh σ ν nd st c) : st.lp.ObjInv := by
  obtain ⟨m, -, -, ⟨ρ, a, -⟩, -⟩ := h.ok
  exact a.obj

/-- A node's state is not affected by changes elsewhere, nor by optimisation. -/
theorem NodeSt.frame {E : Env K} {gh gh' : Ghost K} {σ σ' : Core K} {ν : ℕ} {nd : Node} {st : SS K}
    {c : ℕ} (h : NodeSt E gh σ ν nd st c) (hn : σ'.nodes[ν]? = some nd) {lp : Lp K}
    (hs : σ'.states[nd.state]? = some { st with lp := lp }) (h1 : lp.toSys = st.lp.toSys)
    (h2 : st.lp.ObjInv → lp.ObjInv) (hG : ∀ x n, gh'.GP nd x n → gh.GP nd x n)
    (hM : gh'.MN ν = gh.MN ν) : NodeSt E gh' σ' ν nd { st with lp := lp } c := by
  have ho := h.obj
  obtain ⟨m, a1, a2, a3⟩ := h.ok
  refine ⟨hn, hs, by rw [hM]; exact h.mode, ⟨m, a1, a2, ?_⟩, h.cle, fun x n hx => h.time x n (hG x n hx),
    fun hc => ?_, h.noLeft⟩
  · exact (a3.withLp h1 (h2 ho)).anti fun x ⟨n, hx⟩ => ⟨n, hG x n hx⟩
  · have := h.lo hc; rw [← h1] at this; exact this

theorem aggTypeOf_chull {E : Env K} {a : AggType} (h : aggTypeOf E = .ok a) (hk : a.kind = .chull) :
    E.chullOn := by
  simp only [aggTypeOf, bind_ok, needSome_ok, pure_ok] at h
  obtain ⟨s, h1, rfl⟩ := h
  exact ⟨s, h1, hk⟩

/-- **`make_node`** -/
theorem makeNode_spec {E : Env K} (hE : E.OkJ) {X0 : ℕ → (ℕ → K) → Prop} {σ σ' : Core K}
    {gh : Ghost K} {L A ids : List ℕ} (h : Body E X0 σ gh (ids ++ L) A) {i : ℕ}
    (hj : CanJoin E σ gh L A ids i) {at_ : Option AggType}
    (hat : ∀ a, at_ = some a → aggTypeOf E = .ok a) {s : Option String} {nid : ℕ}
    (hm : makeNode E σ ids at_ s = .ok (σ', nid)) :
    ∃ ss rts sid st, σ' = { σ with
        states := ss
        roots := rts
        nodes := σ.nodes ++ [{ state := sid, parents := ids, agg := at_ }]
        ops := ids.foldl (fun l o => l.modify o fun x =>
          { x with child := some σ.nodes.length }) σ.ops } ∧
      nid = σ.nodes.length ∧
      Body E X0 σ' { gh with MN := Function.update gh.MN σ.nodes.length i } L (σ.nodes.length :: A) ∧
      NodeSt E { gh with MN := Function.update gh.MN σ.nodes.length i } σ' nid
        { state := sid, parents := ids, agg := at_ } st 0 ∧ st.stepIn = 0 ∧
      ∀ (μ : ℕ) md st c, NodeSt E gh σ μ md st c → ∃ st',
        NodeSt E { gh with MN := Function.update gh.MN σ.nodes.length i } σ' μ md st' c ∧
        st'.stepIn = st.stepIn := by
  simp only [makeNode, bind_ok, needSome_ok, pure_ok, Prod.mk.injEq] at hm
  obtain ⟨os, hos, sts, hsts, ⟨σ1, sid⟩, hns, st, hst, hσ', hnid⟩ := hm
  have fos := mapM_needSome hos
  have fsts := mapM_needSome hsts
  obtain ⟨m, hm1, hm2⟩ := hj.mode
  -- the operations and their state sets
  have hfresh : ∀ p ∈ ids, ∃ op st, σ.ops[p]? = some op ∧ op ∈ os ∧ σ.states[op.post]? = some st ∧
      st ∈ sts ∧ FreshSt E gh p op st ∧ (2 ≤ ids.length → op.parent ≠ none) := by
    intro p hp
    obtain ⟨k, hk, rfl⟩ := List.getElem_of_mem hp
    have hk2 : k < os.length := by rw [← fos.length_eq]; exact hk
    have hk3 : k < sts.length := by rw [← fsts.length_eq]; exact hk2
    have e1 := fos.get hk hk2
    have e2 := fsts.get hk2 hk3
    obtain ⟨op, q1, q2, q3, q4⟩ := hj.ops _ hp
    have : op = os[k] := Option.some.inj (q1.symm.trans e1)
    subst this
    obtain ⟨s, r1, r2⟩ := h.fresh _ _ q1 q3
    have : s = sts[k] := Option.some.inj (r1.symm.trans e2)
    subst this
    exact ⟨_, _, q1, List.getElem_mem _, r1, List.getElem_mem _, r2, q4⟩
  have hGMN : ∀ μ < σ.nodes.length, Function.update gh.MN σ.nodes.length i μ = gh.MN μ :=
    fun μ hμ => Function.update_of_ne (by omega) _ _
  have hothers : ∀ (ss : List (SS K)), (∀ (k : ℕ) st, σ.states[k]? = some st → k ≠ sid →
      ∃ lp, ss[k]? = some { st with lp := lp } ∧ lp.toSys = st.lp.toSys ∧ (st.lp.ObjInv → lp.ObjInv)) →
      σ'.states = ss →
      (∀ (μ : ℕ) md, σ.nodes[μ]? = some md → σ'.nodes[μ]? = some md ∧ md.state ≠ sid) →
      ∀ (μ : ℕ) md st c, NodeSt E gh σ μ md st c → ∃ st',
        NodeSt E { gh with MN := Function.update gh.MN σ.nodes.length i } σ' μ md st' c ∧
        st'.stepIn = st.stepIn := by
    intro ss hss he hnn μ md s c hns
    obtain ⟨k1, k2⟩ := hnn μ md hns.node
    obtain ⟨lp, q1, q2, q3⟩ := hss _ s hns.state k2
    exact ⟨_, hns.frame k1 (by rw [he]; exact q1) q2 q3 (fun _ _ hx => hx)
      (hGMN μ (lt_of_getElem? hns.node)), rfl⟩
  unfold nodeState at hns
  split at hns
  · -- one operation
    rename_i o
    cases hns
    obtain ⟨p, rfl⟩ : ∃ p, ids = [p] := by
      have := fos.length_eq
      match ids, this with
      | [p], _ => exact ⟨p, rfl⟩
    obtain ⟨op, st0, q1, q2, q3, q4, q5, -⟩ := hfresh p (by simp)
    simp only [List.mem_singleton] at q2
    subst q2
    rw [hst] at q3; cases q3
    have hlt := lt_of_getElem? hst
    have hmode : st.mode = i := by
      obtain ⟨op', r1, r2, -⟩ := hj.ops p (by simp)
      rw [q5.mode, r2]
    have hss1 : (σ.states.set op.post { st with aggstr := s })[op.post]? =
      some { st with aggstr := s } := List.getElem?_set_self hlt
    have hss2 : ∀ k < σ.states.length, k ≠ op.post →
        (σ.states.set op.post { st with aggstr := s })[k]? = σ.states[k]? :=
      fun k _ hk => List.getElem?_set_ne (Ne.symm hk)
    have hB := Body.addNode h hj hat hss1 hss2 (by simp) (.inr ⟨p, op, rfl, q1, rfl⟩) hmode
      (rts := if [op].any (fun o => o.parent.isNone) then σ.roots ++ [σ.nodes.length] else σ.roots)
    refine ⟨_, _, op.post, { st with aggstr := s }, hσ'.symm, hnid.symm, ?_, ?_, ?_, ?_⟩
    · rw [← hσ']; exact hB
    · rw [← hσ', ← hnid]
      refine ⟨List.getElem?_concat_length, hss1, ?_, ⟨m, by rw [hmode]; exact hm1, hm2, ?_⟩, by simp, ?_,
        q5.lo, ?_⟩
      · show st.mode = _
        rw [hmode]
        exact (Function.update_self σ.nodes.length i gh.MN).symm
      · have key : st.Ok m (E.dyn st.mode) (fun x => ∃ n, gh.G p x n) E.T.inter False 0 := by
          by_cases hpar : op.parent = none
          · exact q5.init hpar m (by rw [hmode]; exact hm1) hm2
          · obtain ⟨e1, e2⟩ := q5.entry hpar
            exact (e1.ok m (by rw [hmode]; exact hm1) hm2).2.anti fun x ⟨n, hx⟩ => e2 x n hx
        obtain ⟨⟨ρ, a1, a2, a3⟩, a4⟩ := key
        refine ⟨⟨ρ, ⟨a1.repr, a1.obj, a1.rows, a1.lgg, a1.basis, a1.n, a1.B, a1.Ns, a1.ies, a1.m⟩, ?_,
          fun hf => hf.elim⟩, a4⟩
        rintro y v ⟨n, p', hp', hx⟩
        simp only [List.mem_singleton] at hp'
        subst hp'
        exact a2 y v ⟨n, hx⟩
      · rintro x n ⟨p', hp', hx⟩
        simp only [List.mem_singleton] at hp'
        subst hp'
        have := q5.time x n hx
        show st.steps.1 ≤ n + st.stepIn
        omega
      · intro a b; simp
    · exact q5.zero
    · refine hothers _ (fun k s' hk hne => ⟨s'.lp, (hss2 k (lt_of_getElem? hk) hne).trans hk, rfl, id⟩)
        (by rw [← hσ']; rfl) ?_
      intro μ md hμ
      refine ⟨by rw [← hσ']; exact append_keep hμ, ?_⟩
      obtain ⟨op', r1, -, r3, -⟩ := hj.ops p (by simp)
      rw [q1] at r1; cases r1
      exact h.freshNe p op μ md q1 r3 hμ
  · -- aggregation
    rename_i hnot
    simp only [bind_ok, needSome_ok, pure_ok, Prod.mk.injEq] at hns
    obtain ⟨a, ha, ⟨σ2, st2⟩, hagg, rfl, rfl⟩ := hns
    have hlen : 2 ≤ ids.length := by
      have e := fos.length_eq
      match ids, os, e, hnot, hj.ne with
      | [_], [o], _, hnot, _ => exact absurd rfl (hnot o)
      | _ :: _ :: _, _, _, _, _ => simp
    have hsl : sts.length = ids.length := by rw [← fsts.length_eq, ← fos.length_eq]
    have hback : ∀ s ∈ sts, ∃ p op, p ∈ ids ∧ σ.ops[p]? = some op ∧ FreshSt E gh p op s ∧
        op.parent ≠ none := by
      intro s hs
      obtain ⟨k, hk, rfl⟩ := List.getElem_of_mem hs
      have hk2 : k < os.length := by rw [fsts.length_eq]; exact hk
      have hk1 : k < ids.length := by rw [fos.length_eq]; exact hk2
      obtain ⟨op, s', q1, -, q3, -, q5, q6⟩ := hfresh _ (List.getElem_mem hk1)
      have : op = os[k] := Option.some.inj (q1.symm.trans (fos.get hk1 hk2))
      subst this
      have : s' = sts[k] := Option.some.inj (q3.symm.trans (fsts.get hk2 hk))
      subst this
      exact ⟨_, _, List.getElem_mem hk1, q1, q5, q6 hlen⟩
    have hmd : ∀ s ∈ sts, s.mode = i := by
      intro s hs
      obtain ⟨p, op, q1, q2, q3, -⟩ := hback s hs
      obtain ⟨op', -, r2, -⟩ := hj.ops p q1
      rw [q3.mode, r2]
    obtain ⟨⟨ss, t1, t2⟩, b1, b2, b3, b4, b5, b6⟩ := aggregateOps_spec hE.toSound hm1 hm2 fsts
      (fun s hs => by
        obtain ⟨p, op, -, -, q3, q4⟩ := hback s hs
        exact ⟨(q3.entry q4).1, hmd s hs⟩)
      (fun hk s hs => by
        obtain ⟨p, op, -, -, q3, -⟩ := hback s hs
        exact q3.lo (aggTypeOf_chull (hat a ha) hk))
      (by rw [hsl]; exact hlen) hagg
    subst t2
    have hss0 : (ss ++ [st2])[ss.length]? = some st2 := List.getElem?_concat_length
    have hst' : (ss ++ [st2])[ss.length]? = some st := hst
    rw [hss0] at hst'
    have hst2 : st2 = st := Option.some.inj hst'
    subst hst2
    set st3 : SS K := { st2 with aggstr := s } with hst3
    have hset : (ss ++ [st2]).set ss.length st3 = ss ++ [st3] := by
      rw [List.set_append_right _ _ (le_refl _)]; simp
    have hB0 := h.touch t1
    have hss1 : (ss ++ [st3])[ss.length]? = some st3 := List.getElem?_concat_length
    have hj0 : CanJoin E { σ with states := ss } gh L A ids i := by
      refine { hj with ops := ?_, apart := ?_ }
      · intro p hp
        obtain ⟨op, r1, r2, r3, r4⟩ := hj.ops p hp
        exact ⟨op, r1, r2, r3, r4⟩
      · intro a μ nd p hanc
        exact hj.apart a μ nd p hanc
    have hB := Body.addNode hB0 hj0 hat (ss := ss ++ [st3]) (sid := ss.length) (st := st3) hss1
      (fun k hk _ => List.getElem?_append_left hk) (by simp) (.inl ⟨hlen, le_refl _⟩) b2
      (rts := if os.any (fun o => o.parent.isNone) then σ.roots ++ [σ.nodes.length] else σ.roots)
    have e' : σ' = { σ with states := ss ++ [st3],
                            nodes := σ.nodes ++ [{ state := ss.length, parents := ids, agg := at_ }],
                            roots := (if os.any (fun o => o.parent.isNone) then σ.roots ++ [σ.nodes.length]
                              else σ.roots),
                            ops := ids.foldl (fun l o => l.modify o fun x =>
                              { x with child := some σ.nodes.length }) σ.ops } := by
      rw [← hσ', ← hset]; rfl
    refine ⟨ss ++ [st3], _, ss.length, st3, e', hnid.symm, ?_, ?_, b1.zero, ?_⟩
    · rw [e']; exact hB
    · rw [e', ← hnid]
      refine ⟨List.getElem?_concat_length, hss1, ?_, ⟨m, by rw [show st3.mode = i from b2]; exact hm1, hm2, ?_⟩,
        by simp, ?_, fun _ => b5, ?_⟩
      · show st2.mode = _
        rw [b2]
        exact (Function.update_self σ.nodes.length i gh.MN).symm
      · obtain ⟨-, hok⟩ := b1.ok m (by rw [b2]; exact hm1) hm2
        obtain ⟨⟨ρ, a1, a2, a3⟩, a4⟩ := hok
        refine ⟨⟨ρ, ⟨a1.repr, a1.obj, a1.rows, a1.lgg, a1.basis, a1.n, a1.B, a1.Ns, a1.ies, a1.m⟩, ?_,
          fun hf => hf.elim⟩, a4⟩
        rintro y v ⟨n, p, hp, hx⟩
        refine a2 y v ?_
        obtain ⟨op, s', q1, -, -, q4, q5, q6⟩ := hfresh p hp
        exact b6 s' q4 y ((q5.entry (q6 hlen)).2 y n hx)
      · rintro x n ⟨p, hp, hx⟩
        obtain ⟨op, s', q1, -, -, q4, q5, q6⟩ := hfresh p hp
        show st2.steps.1 ≤ n + st2.stepIn
        rw [b3]
        have e1 := q5.time x n hx
        have e2 : (stepInterval (sts.map fun s => s.steps)).1 ≤ s'.steps.1 := by
          unfold stepInterval
          apply min?_getD_le
          simp only [List.map_map, List.mem_map, Function.comp]
          exact ⟨s', q4, rfl⟩
        omega
      · intro a b; simp
    · refine hothers (ss ++ [st3]) ?_ (by rw [e']) ?_
      · intro k s' hk _
        obtain ⟨lp, r1, r2, r3⟩ := t1.2 k s' hk
        exact ⟨lp, append_keep r1, r2, r3⟩
      · intro μ md hμ
        refine ⟨by rw [e']; exact append_keep hμ, ?_⟩
        obtain ⟨s', r1, -⟩ := h.ndSt μ md hμ
        have := lt_of_getElem? r1
        have := t1.1
        show md.state ≠ ss.length
        omega

end Hylaa
