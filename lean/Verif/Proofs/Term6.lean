import Verif.Proofs.Term5

/-! Termination with deaggregation: the end of a replay, splitting a node. -/

set_option linter.unusedSectionVars false

namespace Hylaa
open Spec
variable {K : Type} [Field K] [LinearOrder K] [IsStrictOrderedRing K] [JumpAt K]

/-- Queued replays and a new node. -/
theorem QOk.node' {σ σ' : Core K} {g : Gt} {A ids : List ℕ} {nid b : ℕ} {new : Node} {e : ℕ × List ℕ}
    (h : QOk σ g A e) (hA : ∀ ν ∈ A, ∃ nd, σ.nodes[ν]? = some nd) (hn : NewNode σ σ' ids nid new) :
    QOk σ' (g.addNode nid b) (nid :: A) e := by
  have hlt : ∀ {μ : ℕ} {nd}, σ.nodes[μ]? = some nd → μ ≠ nid := fun h => by
    rw [hn.hid]; exact (lt_of_getElem? h).ne
  obtain ⟨nd, h1⟩ := h.node
  refine ⟨⟨nd, hn.node_fwd h1⟩, fun hl => h.dead (hn.live_back hl), fun k hk => ?_⟩
  obtain ⟨k1, k2⟩ := h.kids k hk
  obtain ⟨md, h2⟩ := hA k k1
  exact ⟨List.mem_cons_of_mem _ k1, by rw [g.addNode_ne (hlt h1), g.addNode_ne (hlt h2)]; exact k2⟩

theorem QOk.of_eq {σ σ' : Core K} {g : Gt} {A : List ℕ} {e : ℕ × List ℕ} (h : QOk σ g A e)
    (h1 : σ'.ops = σ.ops) (h2 : σ'.nodes = σ.nodes) : QOk σ' g A e := by
  refine ⟨by rw [h2]; exact h.node, fun hl => h.dead ?_, h.kids⟩
  unfold NLive at hl ⊢
  rwa [h1, h2] at hl

theorem mQ_append {σ : Core K} {g : Gt} {e : ℕ × List ℕ} :
    mQ { σ with queue := σ.queue ++ [e] } g = mQ σ g + {tri (2 * g.hN e.1) 0 (σ.numOps e.1)} := by
  unfold mQ
  simp only
  rw [← Multiset.coe_add, Multiset.map_add]
  rfl

/-- What the steps at the end of a replay keep. -/
structure Fin (E : Env K) (ρ : ℕ → ℕ) (σ : Core K) (g : Gt) (A : List ℕ) : Prop where
  tree : Tree E ρ σ g [] A
  queue : ∀ e ∈ σ.queue, QOk σ g A e

theorem finishReplay_went {E : Env K} {ρ : ℕ → ℕ} {b : ℕ} : ∀ (l : List ((ℕ × ℕ) × List ℕ)) {σ σ' : Core K}
    {g : Gt} {A : List ℕ}, Tree E ρ σ g (l.flatMap fun e => e.2) A → (∀ e ∈ l, Ent σ g b e) →
    (∀ e ∈ σ.queue, QOk σ g A e) → finishReplay E σ l = .ok σ' →
    ∃ g' A', Fin E ρ σ' g' A' ∧ σ'.cur = σ.cur ∧ σ'.rep = σ.rep ∧
      MAdds (tri (2 * b) 0 0) (mW σ g + mN σ g + mQ σ g) (mW σ' g' + mN σ' g' + mQ σ' g')
  | [], σ, σ', g, A, ht, he, hq, h => by
    cases h
    exact ⟨g, A, ⟨ht, hq⟩, rfl, rfl, .of_le le_rfl⟩
  | ((k, c), ops) :: l, σ, σ', g, A, ht, he, hq, h => by
    simp only [finishReplay, bind_ok, needSome_ok] at h
    obtain ⟨n, hn, st, hst, ⟨σ1, nid⟩, hmk, h⟩ := h
    obtain ⟨sid, hN⟩ := makeNode_new hmk
    have e0 := he _ List.mem_cons_self
    simp only [List.flatMap_cons] at ht
    have hnd := List.nodup_append.1 ht.heldNodup
    have hlt : ∀ {μ : ℕ} {nd}, σ.nodes[μ]? = some nd → μ ≠ nid := fun h => by
      rw [hN.hid]; exact (lt_of_getElem? h).ne
    have t1 : Tree E ρ σ1 (g.addNode nid (g.hN c)) (l.flatMap fun e => e.2) (nid :: A) := by
      refine ht.node hN hnd.1 e0.ops (fun o ho => (ht.held o (by simp [ho])).2) hnd.2.1
        (fun o ho => ⟨List.mem_append_right _ ho, fun hc => hnd.2.2 o hc o ho rfl⟩) ht.live ?_
      intro a μ nd p ha hu hμ hp hpp
      obtain ⟨⟨op, a1, a2⟩, -⟩ := ht.held p (by simp [hp])
      have := ht.live a ha μ nd p op hu hμ hpp a1
      rw [a2] at this; cases this
    have hEnt : ∀ e ∈ l, Ent σ1 (g.addNode nid (g.hN c)) b e := by
      intro e hel
      have e1 := he e (List.mem_cons_of_mem _ hel)
      obtain ⟨nd, h1⟩ := e1.node
      refine ⟨⟨nd, hN.node_fwd h1⟩, fun hl => e1.dead (hN.live_back hl), e1.ne, ?_, ?_⟩
      · rw [g.addNode_ne (hlt h1)]; exact e1.ops
      · rw [g.addNode_ne (hlt h1)]; exact e1.bud
    have hQ : ∀ e ∈ ({ σ1 with queue := σ1.queue ++ [(c, [nid])] } : Core K).queue,
        QOk { σ1 with queue := σ1.queue ++ [(c, [nid])] } (g.addNode nid (g.hN c)) (nid :: A) e := by
      intro e hem
      rcases List.mem_append.1 hem with hem | hem
      · rw [hN.ctl.2.1] at hem
        exact ((hq e hem).node' ht.act hN).of_eq rfl rfl
      · simp only [List.mem_singleton] at hem
        subst hem
        refine ⟨⟨n, hN.node_fwd hn⟩, fun hl => e0.dead (hN.live_back hl), fun k hk => ?_⟩
        simp only [List.mem_singleton] at hk
        subst hk
        exact ⟨List.mem_cons_self, by rw [g.addNode_eq, g.addNode_ne (hlt hn)]⟩
    obtain ⟨g', A', r1, r2, r3, r4⟩ := finishReplay_went l
      (σ := { σ1 with queue := σ1.queue ++ [(c, [nid])] }) (t1.of_eq rfl rfl rfl rfl)
      (fun e hel => ⟨(hEnt e hel).node, (hEnt e hel).dead, (hEnt e hel).ne, (hEnt e hel).ops, (hEnt e hel).bud⟩) hQ h
    refine ⟨g', A', r1, r2.trans hN.ctl.1, r3.trans hN.ctl.2.2, MAdds.trans ?_ r4⟩
    have hb : g.hN c + 1 = b := e0.bud
    rw [mQ_append]
    have z1 : mW ({ σ1 with queue := σ1.queue ++ [(c, [nid])] } : Core K) (g.addNode nid (g.hN c)) = mW σ g := hN.mW
    have z2 : mN ({ σ1 with queue := σ1.queue ++ [(c, [nid])] } : Core K) (g.addNode nid (g.hN c)) =
        mN σ g + {tri (2 * g.hN c) ops.length 0} := hN.mN (σ' := σ1) ht
    rw [z1, z2, hN.mQ (fun e he => (hq e he).node), g.addNode_ne (hlt hn)]
    refine MAdds.add (MAdds.add (.of_le le_rfl) (.one _ ?_)) (.one _ ?_)
    · exact tri_lt (.inl (by omega))
    · exact tri_lt (.inl (by show 2 * g.hN c < _; omega))

/-- One round of a replay. -/
theorem stepReplay_dec {E : Env K} {ρ : ℕ → ℕ} {σ σ' : Core K} {g : Gt} {A : List ℕ}
    (hI : TI E ρ σ g A) (hc : σ.cur = none) (h : stepReplay E σ = .ok σ') :
    ∃ g' A', TI E ρ σ' g' A' ∧ σ'.cur = none ∧ (mes E σ' g').IsDershowitzMannaLT (mes E σ g) := by
  simp only [stepReplay, bind_ok, needSome_ok] at h
  obtain ⟨⟨σ0, r⟩, hi, pn, hpn, o, ho, s, hs, ⟨σ1, cur', lft', k', toOps'⟩, hl, σ2, ha, h⟩ := h
  simp only at hpn ho hs hl ha h
  have hinit : RS E ρ σ0 g r.parent pn r.children r.toOps A ∧ (∀ e ∈ σ0.queue, QOk σ0 g A e) ∧ σ0.cur = none ∧
      mes E σ g = mW σ0 g + mN σ0 g + mQ σ0 g + {tri (2 * g.hN r.parent) 0 (σ0.numOps r.parent - r.idx)} := by
    rw [mes_left g hc]
    unfold initReplay at hi
    split at hi
    · rename_i r' hr
      cases hi
      obtain ⟨pn', h1⟩ := hI.rep _ hr
      have := h1.par
      rw [hpn] at this; cases this
      refine ⟨h1, hI.queue, hc, ?_⟩
      unfold mR; rw [hr]
    · rename_i p ks q hr hq
      cases hi
      have q0 := hI.queue (p, ks) (by rw [hq]; simp)
      have e0 : σ.toOps = [] := by unfold Core.toOps; rw [hr]
      have t0 := hI.tree
      rw [e0] at t0
      refine ⟨⟨t0.of_eq rfl rfl rfl rfl, hpn, q0.dead, q0.kids, by simp⟩, fun e he => ?_, hc, ?_⟩
      · exact (hI.queue e (by rw [hq]; exact List.mem_cons_of_mem _ he)).of_eq rfl rfl
      · have z1 : mR σ g = 0 := by unfold mR; rw [hr]
        have z2 : mQ σ g = mQ ({ σ with queue := q } : Core K) g + {tri (2 * g.hN p) 0 (σ.numOps p)} := by
          unfold mQ
          rw [hq, ← Multiset.cons_coe, Multiset.map_cons, ← Multiset.singleton_add, add_comm]
          rfl
        rw [z1, z2, add_zero, ← add_assoc]
        rfl
    · cases hi
  obtain ⟨rs, qs, c0, hm⟩ := hinit
  have hkA : ∀ ν ∈ r.children, ν ∈ A := fun ν hν => (rs.kids ν hν).1
  have hidx : r.idx < pn.ops.length := lt_of_getElem? ho
  have hdrop : pn.ops.drop r.idx = o :: pn.ops.drop (r.idx + 1) := by
    rw [List.drop_eq_getElem_cons hidx]
    rw [List.getElem?_eq_getElem hidx] at ho
    rw [Option.some.inj ho]
  obtain ⟨-, hk, g1, rs1, f1, c1⟩ := replayLoop_went (pn.ops.drop r.idx) (fun x hx => List.mem_of_mem_drop hx) rs hl
  have hk := hk o _ hdrop hs rfl
  obtain ⟨s2, c2⟩ := advanceKids_soft r.children ha
  have rs2 := rs1.soft (by simp) s2
  have f2 : Fr r.children (g.hN r.parent) σ0 g σ2 g1 := f1.trans ((s2.fr _ _).mono (by simp))
  have ctl := c1.trans c2
  have qs2 : ∀ e ∈ σ2.queue, QOk σ2 g1 A e := fun e he => by
    rw [ctl.2.1] at he; exact (qs e he).fr f2
  have hno : σ2.numOps r.parent = pn.ops.length := numOps_eq rs2.par
  have ad : ∀ i j, MAdds (tri (2 * g.hN r.parent) i j) (mW σ0 g + mN σ0 g + mQ σ0 g) (mW σ2 g1 + mN σ2 g1 + mQ σ2 g1) := by
    intro i j
    rw [f2.mN, f2.mQ ctl.2.1 fun e he => ⟨(qs e he).node, fun hc => (qs e he).dead (rs.tree.live _ (.inl (hkA _ hc)))⟩]
    exact ((f2.mW rs.tree i j).add (.of_le le_rfl)).add (.of_le le_rfl)
  have hcur2 : σ2.cur = none := ctl.1.trans c0
  split at h
  · obtain ⟨g3, A3, F, e1, e2, ad2⟩ := finishReplay_went toOps' (σ := { σ2 with rep := none }) (b := g.hN r.parent)
      (rs2.tree.of_eq rfl rfl rfl rfl) (fun e he => by
        have := rs2.ents e he
        rw [f2.hN] at this
        exact ⟨this.node, this.dead, this.ne, this.ops, this.bud⟩) (fun e he => (qs2 e he).of_eq rfl rfl) h
    have hc3 : σ'.cur = none := e1.trans hcur2
    have hr3 : σ'.rep = none := e2
    have e3 : σ'.toOps = [] := by unfold Core.toOps; rw [hr3]
    refine ⟨g3, A3, ⟨by rw [e3]; exact F.tree, by rw [hc3]; simp, fun _ => hc3, F.queue, by rw [hr3]; simp⟩, hc3, ?_⟩
    refine MAdds.lt' hm ?_
    rw [mes_left g3 hc3]
    have : mR σ' g3 = 0 := by unfold mR; rw [hr3]
    rw [this, add_zero]
    refine (ad _ _).trans (ad2.mono ?_)
    refine le_of_lt (tri_lt (.inr ⟨rfl, .inr ⟨rfl, ?_⟩⟩))
    rw [numOps_eq rs.par]; omega
  · cases h
    have hpar : ({ σ2 with rep := some { r with idx := r.idx + k', toOps := toOps' } } : Core K).toOps = toOps' := rfl
    refine ⟨g1, A, ⟨by rw [hpar]; exact rs2.tree.of_eq rfl rfl rfl rfl, by
      show ∀ ν, σ2.cur = some ν → _
      rw [hcur2]; simp, fun _ => hcur2, fun e he => (qs2 e he).of_eq rfl rfl, fun r' hr' => ?_⟩, hcur2, ?_⟩
    · cases hr'
      refine ⟨pn, rs2.tree.of_eq rfl rfl rfl rfl, rs2.par, rs2.dead, rs2.kids, fun e he => ?_⟩
      have := rs2.ents e he
      exact ⟨this.node, this.dead, this.ne, this.ops, this.bud⟩
    · refine MAdds.lt' hm ?_
      rw [mes_left g1 (σ := { σ2 with rep := some { r with idx := r.idx + k', toOps := toOps' } }) hcur2]
      refine (ad _ _).trans (.one _ (tri_lt (.inr ⟨by rw [f2.hN], .inr ⟨rfl, ?_⟩⟩)))
      show σ2.numOps r.parent - (r.idx + k') < _
      rw [hno, numOps_eq rs.par]; omega

/-! ### Splitting a node -/

theorem Tree.up_le {E : Env K} {ρ : ℕ → ℕ} {σ : Core K} {g : Gt} {L A : List ℕ} (h : Tree E ρ σ g L A) {a b : ℕ}
    (hu : Up σ.nodes σ.ops a b) : b ≤ a := by
  induction hu with
  | refl => exact le_refl _
  | @step μ nd p op μ' _ h1 h2 h3 h4 ih =>
    obtain ⟨op', q1, -, q2⟩ := h.ndPar _ _ _ h1 h2
    rw [h3] at q1; cases q1
    exact ((q2 _ h4).le).trans ih

theorem Tree.down {E : Env K} {ρ : ℕ → ℕ} {σ : Core K} {g : Gt} {L A : List ℕ} (h : Tree E ρ σ g L A) {a b : ℕ}
    (hu : Up σ.nodes σ.ops a b) (hl : NLive σ a) : Down σ b a := by
  induction hu with
  | refl => exact .refl _
  | @step μ nd p op μ' h0 h1 h2 h3 h4 ih =>
    obtain ⟨⟨nd', q1, q2⟩, -⟩ := h.opPar _ _ _ h3 h4
    exact .step q1 q2 h3 (hl _ _ _ _ h0 h1 h2 h3) ih

/-- An old node with none of the joined operations above it stays live. -/
theorem NewNode.live_old {σ σ' : Core K} {ids : List ℕ} {nid : ℕ} {new : Node} (hn : NewNode σ σ' ids nid new)
    (hp : ∀ (o : ℕ) op μ, σ.ops[o]? = some op → op.parent = some μ → μ < σ.nodes.length) {a : ℕ}
    (ha : a < σ.nodes.length) (hl : NLive σ a)
    (hc : ∀ μ nd p, Up σ.nodes σ.ops a μ → σ.nodes[μ]? = some nd → p ∈ ids → p ∉ nd.parents) : NLive σ' a := by
  intro μ nd p op h1 h2 h3 h4
  obtain ⟨u1, u2⟩ := hn.up_back hp ha h1
  rcases hn.node_back h2 with ⟨h2, -⟩ | ⟨rfl, -⟩
  · obtain ⟨op0, k1, rfl⟩ := hn.op_back h4
    rw [if_neg fun hp => hc μ nd p u1 h2 hp h3]
    exact hl μ nd p op0 u1 h2 h3 k1
  · rw [hn.hid] at u2; omega

theorem mW_filter {σ : Core K} (g : Gt) (p : ℕ → Bool) : mW { σ with waiting := σ.waiting.filter p } g ≤ mW σ g := by
  unfold mW
  refine Multiset.map_le_map ?_
  exact List.filter_sublist.subperm

theorem beginReplay_dec {E : Env K} {ρ : ℕ → ℕ} {σ σ' : Core K} {g : Gt} {A : List ℕ}
    (hI : TI E ρ σ g A) (hc : σ.cur = none) (hr : σ.rep = none) (hq : σ.queue = []) {nid : ℕ}
    (hg : getDeaggNode E σ = .ok (some nid)) (h : beginReplay E σ nid = .ok σ') :
    ∃ g' A', TI E ρ σ' g' A' ∧ σ'.cur = none ∧ (mes E σ' g').IsDershowitzMannaLT (mes E σ g) := by
  obtain ⟨-, o0, ho0, op0, p0, hop0, hp0, hup0, nd, hnd, h2⟩ := getDeagg_some hg
  have t0 : Tree E ρ σ g [] [] := hI.tree.mono (by simp) (by simp) (by simp)
  have hlive : NLive σ nid := (t0.live p0 (.inr ⟨o0, op0, .inl ho0, hop0, hp0⟩)).up hup0
  simp only [beginReplay, splitNode, bind_ok, needSome_ok, pure_ok] at h
  obtain ⟨rm, hrm, ⟨σ2', r0', r1'⟩, ⟨n, hn, -, -, st, hst, ⟨σ1, r0⟩, hm1, ⟨σ2, r1⟩, hm2, heq⟩, rfl⟩ := h
  obtain rfl : n = nd := Option.some.inj (hn.symm.trans hnd)
  simp only [Prod.mk.injEq] at heq
  obtain ⟨rfl, rfl, rfl⟩ := heq
  have tc := t0.unwait fun o => !rm.contains o
  set σc : Core K := { σ with waiting := σ.waiting.filter fun o => !rm.contains o } with hσc
  set mid := n.parents.length / 2 with hmid
  simp only at hm1 hm2
  obtain ⟨sid1, N1⟩ := makeNode_new hm1
  obtain ⟨sid2, N2⟩ := makeNode_new hm2
  have hparN := t0.ndNodup _ _ hnd
  have htd : n.parents.take mid ++ n.parents.drop mid = n.parents := List.take_append_drop _ _
  have hdisj : ∀ p ∈ n.parents.drop mid, p ∉ n.parents.take mid := by
    intro p hp hq
    rw [← htd] at hparN
    exact (List.nodup_append.1 hparN).2.2 p hq p hp rfl
  have hpar : ∀ p ∈ n.parents, ∃ op, σ.ops[p]? = some op ∧ g.hO p = g.hN nid ∧ op.child = some nid ∧
      ∀ a, op.parent = some a → a < nid ∧ NLive σ a := by
    intro p hp
    obtain ⟨op, q1, q2, q3⟩ := t0.ndPar _ _ _ hnd hp
    exact ⟨op, q1, q2, hlive nid n p op (.refl _) hnd hp q1, fun a ha =>
      ⟨q3 a ha, hlive.up (.step (.refl _) hnd hp q1 ha)⟩⟩
  have hwp : ∀ p ∈ n.parents, p ∉ σ.waiting := by
    intro p hp hc
    obtain ⟨op, q1, -, q3, -⟩ := hpar p hp
    obtain ⟨op', q4, q5⟩ := t0.wait p hc
    rw [q1] at q4; cases q4
    rw [q3] at q5; cases q5
  -- anchors are live, and not below the node being split
  have hanc : ∀ a, Anchor σc n.parents [] a → NLive σ a ∧ ¬ Up σ.nodes σ.ops a nid := by
    rintro a (ha | ⟨o, op, ho, h3, h4⟩)
    · simp at ha
    · have h3 : σ.ops[o]? = some op := h3
      rcases ho with ho | ho
      · obtain ⟨w1, w2⟩ := List.mem_filter.1 ho
        have hla := t0.live a (.inr ⟨o, op, .inl w1, h3, h4⟩)
        refine ⟨hla, fun hu => ?_⟩
        obtain ⟨op', c1, c2⟩ := t0.wait o w1
        rw [h3] at c1; cases c1
        obtain ⟨⟨nda, d1, d2⟩, -⟩ := t0.opPar o op a h3 h4
        have : o ∈ rm := (leafOps_mem _ hrm o).2 ⟨a, nda, op, t0.down hu hla, d1, d2, h3, c2⟩
        simp [this] at w2
      · obtain ⟨op', q1, -, -, q4⟩ := hpar o ho
        rw [h3] at q1; cases q1
        refine ⟨(q4 a h4).2, fun hu => ?_⟩
        have := (q4 a h4).1
        have := t0.up_le hu
        omega
  have hcut : ∀ a μ nd' p, Anchor σc n.parents [] a → Up σ.nodes σ.ops a μ → σ.nodes[μ]? = some nd' →
      p ∈ n.parents → p ∉ nd'.parents := by
    intro a μ nd' p ha hu hμ hp hpp
    obtain ⟨op, q1, -, q3, -⟩ := hpar p hp
    have := (hanc a ha).1 μ nd' p op hu hμ hpp q1
    rw [q3] at this
    obtain rfl : nid = μ := Option.some.inj this
    exact (hanc a ha).2 hu
  have sub1 : ∀ a, Anchor σc (n.parents.take mid ++ []) [] a → Anchor σc n.parents [] a := by
    rintro a (ha | ⟨o, op, ho, h3⟩)
    · exact .inl ha
    · exact .inr ⟨o, op, ho.imp id fun q => List.mem_of_mem_take (by simpa using q), h3⟩
  have t1 : Tree E ρ σ1 (g.addNode r0 (g.hN nid)) [] [r0] :=
    tc.node N1 (hparN.sublist (List.take_sublist _ _))
      (fun o ho => by obtain ⟨_, -, q, -⟩ := hpar o (List.mem_of_mem_take ho); exact q)
      (fun o ho hcc => hwp o (List.mem_of_mem_take ho) (List.mem_filter.1 hcc).1) (by simp) (by simp)
      (fun a ha => (hanc a (sub1 a ha)).1)
      (fun a μ nd' p ha hu hμ hp => hcut a μ nd' p (sub1 a ha) hu hμ (List.mem_of_mem_take hp))
  have hlen1 : r0 = σ.nodes.length := N1.hid
  have hlen2 : r1 = σ.nodes.length + 1 := by rw [N2.hid, N1.nodes]; simp [hσc]
  have hnl := lt_of_getElem? hnd
  -- an operation after the first node is made
  have old1 : ∀ a, Anchor σ1 (n.parents.drop mid ++ []) [r0] a → a = r0 ∨ (Anchor σc n.parents [] a ∧ a < σ.nodes.length) := by
    rintro a (ha | ⟨o, op, ho, h3, h4⟩)
    · exact .inl (by simpa using ha)
    · obtain ⟨op0, k1, rfl⟩ := N1.op_back h3
      rw [ite_child] at h4
      refine .inr ⟨.inr ⟨o, op0, ?_, k1, h4⟩, t0.parlt o op0 a k1 h4⟩
      rw [N1.waiting] at ho
      exact ho.imp id fun q => List.mem_of_mem_drop (by simpa using q)
  have t2 : Tree E ρ σ2 ((g.addNode r0 (g.hN nid)).addNode r1 (g.hN nid)) [] [r1, r0] := by
    refine t1.node N2 (hparN.sublist (List.drop_sublist _ _))
      (fun o ho => by obtain ⟨_, -, q, -⟩ := hpar o (List.mem_of_mem_drop ho); exact q)
      (fun o ho hcc => ?_) (by simp) (by simp) (fun a ha => ?_) (fun a μ nd' p ha hu hμ hp hpp => ?_)
    · rw [N1.waiting] at hcc
      exact hwp o (List.mem_of_mem_drop ho) (List.mem_filter.1 hcc).1
    · rcases old1 a ha with rfl | ⟨h3, h4⟩
      · exact t1.live _ (.inl (by simp))
      · exact N1.live_old tc.parlt h4 (hanc a h3).1 fun μ nd' p hu hμ hp =>
          hcut a μ nd' p h3 hu hμ (List.mem_of_mem_take hp)
    · have hpn : p ∈ n.parents := List.mem_of_mem_drop hp
      rcases old1 a ha with rfl | ⟨h3, h4⟩
      · rcases N1.up_new tc.parlt hu with rfl | ⟨o, ho, op, a', i1, i2, i3, i4⟩
        · rcases N1.node_back hμ with ⟨-, h5⟩ | ⟨-, rfl⟩
          · exact absurd rfl h5
          · exact hdisj p hp hpp
        · rcases N1.node_back hμ with ⟨h5, -⟩ | ⟨rfl, -⟩
          · exact hcut a' μ nd' p (.inr ⟨o, op, .inr (List.mem_of_mem_take ho), i1, i2⟩) i3 h5 hpn hpp
          · have : _ < σ.nodes.length := i4
            omega
      · obtain ⟨u1, u2⟩ := N1.up_back tc.parlt h4 hu
        have u2 : μ < σ.nodes.length := u2
        rcases N1.node_back hμ with ⟨h5, -⟩ | ⟨rfl, -⟩
        · exact hcut a μ nd' p h3 u1 h5 hpn hpp
        · omega
  have hn2 : σ2.nodes[nid]? = some n := N2.node_fwd (N1.node_fwd hnd)
  obtain ⟨p, hp⟩ : ∃ p, p ∈ n.parents.take mid := by
    refine List.exists_mem_of_length_pos ?_
    rw [List.length_take]; omega
  obtain ⟨opp, hopp, -⟩ := hpar p (List.mem_of_mem_take hp)
  have t3 := t2.kill hn2 (List.mem_of_mem_take hp) (N2.op_fwd (N1.op_fwd hopp)) (by
    rw [if_pos hp]
    split <;> simp <;> omega)
  have hdead : ¬ NLive σ2 nid := fun hl => t3.live_notD hl (by simp)
  have hgn : ((g.addNode r0 (g.hN nid)).addNode r1 (g.hN nid)).hN nid = g.hN nid := by
    rw [Gt.addNode_ne _ (by omega), Gt.addNode_ne _ (by omega)]
  have hg0 : ((g.addNode r0 (g.hN nid)).addNode r1 (g.hN nid)).hN r0 = g.hN nid := by
    rw [Gt.addNode_ne _ (by omega), Gt.addNode_eq]
  have hg1 : ((g.addNode r0 (g.hN nid)).addNode r1 (g.hN nid)).hN r1 = g.hN nid := Gt.addNode_eq _ _ _
  have e1 : σ2.queue = [] := by rw [N2.ctl.2.1, N1.ctl.2.1]; exact hq
  have e2 : σ2.rep = none := by rw [N2.ctl.2.2, N1.ctl.2.2]; exact hr
  have e3 : σ2.cur = none := by rw [N2.ctl.1, N1.ctl.1]; exact hc
  have e4 : ({ σ2 with queue := σ2.queue ++ [(nid, [r0, r1])] } : Core K).toOps = [] := by
    unfold Core.toOps; simp only [e2]
  refine ⟨_, [r1, r0], ⟨by rw [e4]; exact t3.of_eq rfl rfl rfl rfl, ?_, fun _ => e3, ?_, ?_⟩, e3, ?_⟩
  · show ∀ ν, σ2.cur = some ν → _
    rw [e3]; simp
  · intro e he
    simp only [e1, List.nil_append, List.mem_singleton] at he
    subst he
    refine QOk.of_eq (σ := σ2) ⟨⟨n, hn2⟩, hdead, fun k hk => ?_⟩ rfl rfl
    simp only [List.mem_cons, List.not_mem_nil, or_false] at hk
    rcases hk with rfl | rfl
    · exact ⟨by simp, hg0.trans hgn.symm⟩
    · exact ⟨by simp, hg1.trans hgn.symm⟩
  · show ∀ r, σ2.rep = some r → _
    rw [e2]; simp
  · have hD : nid ∉ g.D := t0.live_notD hlive
    have m0 := mN_insert (σ := σ) hnl hD
    have m2 := mN_insert (σ := σ2) (g := (g.addNode r0 (g.hN nid)).addNode r1 (g.hN nid)) (lt_of_getElem? hn2) hD
    rw [hgn, numParents_eq hn2, N2.mN t1, N1.mN tc, show mN σc g = mN σ g from rfl, m0, numParents_eq hnd] at m2
    have m3 : mN σ2 { (g.addNode r0 (g.hN nid)).addNode r1 (g.hN nid) with
        D := insert nid ((g.addNode r0 (g.hN nid)).addNode r1 (g.hN nid)).D } =
        mN σ { g with D := insert nid g.D } + {tri (2 * g.hN nid) (n.parents.take mid).length 0} +
          {tri (2 * g.hN nid) (n.parents.drop mid).length 0} := by
      refine add_right_cancel (b := {tri (2 * g.hN nid) n.parents.length 0}) (m2.symm.trans ?_)
      abel
    have hm : mes E σ g = mW σ g + mN σ { g with D := insert nid g.D } + {tri (2 * g.hN nid) n.parents.length 0} := by
      rw [mes_left g hc]
      have z1 : mQ σ g = 0 := by unfold mQ; rw [hq]; rfl
      have z2 : mR σ g = 0 := by unfold mR; rw [hr]
      rw [z1, z2, m0, numParents_eq hnd, add_zero, add_zero, ← add_assoc]
    refine MAdds.lt' hm ?_
    rw [mes_left _ (show ({ σ2 with queue := σ2.queue ++ [(nid, [r0, r1])] } : Core K).cur = none from e3), mQ_append]
    have z0 : ∀ g', mR ({ σ2 with queue := σ2.queue ++ [(nid, [r0, r1])] } : Core K) g' = 0 := by
      intro g'; unfold mR; simp only [e2]
    have z1 : ∀ g', mQ σ2 g' = 0 := by intro g'; unfold mQ; rw [e1]; rfl
    have z2 : mW ({ σ2 with queue := σ2.queue ++ [(nid, [r0, r1])] } : Core K)
        { (g.addNode r0 (g.hN nid)).addNode r1 (g.hN nid) with
          D := insert nid ((g.addNode r0 (g.hN nid)).addNode r1 (g.hN nid)).D } = mW σc g :=
      (N2.mW (g := g.addNode r0 (g.hN nid)) (b := g.hN nid)).trans N1.mW
    have z3 : mN ({ σ2 with queue := σ2.queue ++ [(nid, [r0, r1])] } : Core K)
        { (g.addNode r0 (g.hN nid)).addNode r1 (g.hN nid) with
          D := insert nid ((g.addNode r0 (g.hN nid)).addNode r1 (g.hN nid)).D } = _ := m3
    rw [z0, z1, z2, z3, add_zero, zero_add]
    refine MAdds.trans (M' := mW σc g + (mN σ { g with D := insert nid g.D } +
      {tri (2 * g.hN nid) (n.parents.take mid).length 0} +
      {tri (2 * g.hN nid) (n.parents.drop mid).length 0})) ?_ (.one _ ?_)
    · refine MAdds.add (.of_le (mW_filter g _)) (MAdds.trans (.one _ ?_) (.one _ ?_))
      · refine tri_lt (.inr ⟨rfl, .inl ?_⟩)
        rw [List.length_take]; omega
      · refine tri_lt (.inr ⟨rfl, .inl ?_⟩)
        rw [List.length_drop]; omega
    · refine tri_lt (.inr ⟨by simp only; rw [hgn], .inl (by omega)⟩)

end Hylaa
