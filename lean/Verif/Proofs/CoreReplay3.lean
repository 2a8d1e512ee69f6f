import Verif.Proofs.CoreReplay2

/-! # Deaggregation: the whole loop -/

namespace Hylaa

set_option linter.unusedSectionVars false

variable {K : Type} [Field K] [LinearOrder K] [IsStrictOrderedRing K] [JumpAt K]

theorem NodeSt.misc {E : Env K} {gh : Ghost K} {σ : Core K} {ν : ℕ} {nd : Node} {st : SS K} {c : ℕ}
    (h : NodeSt E gh σ ν nd st c) (q : List (ℕ × List ℕ)) (r : Option Replay) :
    NodeSt E gh { σ with queue := q, rep := r } ν nd st c :=
  ⟨h.node, h.state, h.mode, h.ok, h.cle, h.time, h.lo, h.noLeft⟩

theorem Kid.misc {E : Env K} {gh : Ghost K} {σ : Core K} {W : ℕ → Prop} {old idx k : ℕ} {ndo nd : Node}
    (h : Kid E gh σ W old idx k ndo nd) (q : List (ℕ × List ℕ)) (r : Option Replay) :
    Kid E gh { σ with queue := q, rep := r } W old idx k ndo nd :=
  ⟨h.nold, h.nkid, h.sub, h.mn, h.pend, h.st.imp id fun ⟨st, c, a⟩ =>
    ⟨st, c, a.node.misc q r, a.cOk, a.inv, a.done⟩⟩

theorem Rp.misc {E : Env K} {X0 : ℕ → (ℕ → K) → Prop} {σ : Core K} {gh : Ghost K} {lo B : ℕ}
    {T : List ((ℕ × ℕ) × List ℕ)} {J : List (ℕ × ℕ × ℕ)} (h : Rp E X0 σ gh lo B T J)
    (q : List (ℕ × List ℕ)) (r : Option Replay) :
    Rp E X0 { σ with queue := q, rep := r } gh lo B T J :=
  ⟨h.body.misc σ.cur q r σ.tookTt, h.on, h.len, h.closed, fun j hj => by
    have := h.jobs j hj
    obtain ⟨a, b, k1, k2⟩ := this.kid
    exact ⟨this.lo, this.hi, this.new, a, b, k1.misc q r, k2⟩, h.nodup, fun e he => by
    have := h.ents e he
    exact ⟨this.lo, this.hi, this.kid, this.ne, this.ops⟩, h.tnodup, h.cur, h.tt⟩

/-- The children waiting for a replay. -/
def qjobs (q : List (ℕ × List ℕ)) : List (ℕ × ℕ × ℕ) := q.flatMap fun e => e.2.map fun k => (k, e.1, 0)

/-- All children to be replayed: `(child, old node, operations already replayed)`. -/
def Core.jobs (σ : Core K) : List (ℕ × ℕ × ℕ) :=
  (match σ.rep with
    | none => []
    | some r => r.children.map fun k => (k, r.parent, r.idx)) ++ qjobs σ.queue

/-- `nodes_to_ops` -/
def Core.toOps (σ : Core K) : List ((ℕ × ℕ) × List ℕ) :=
  match σ.rep with
  | none => []
  | some r => r.toOps

/-- A refinement is under way (or just done). -/
def Replaying (E : Env K) (X0 : ℕ → (ℕ → K) → Prop) (σ : Core K) (gh : Ghost K) : Prop :=
  ∃ lo B, Rp E X0 σ gh lo B σ.toOps σ.jobs

theorem qjobs_zero {q : List (ℕ × List ℕ)} {j : ℕ × ℕ × ℕ} (h : j ∈ qjobs q) : j.2.2 = 0 := by
  obtain ⟨e, -, h2⟩ := List.mem_flatMap.1 h
  obtain ⟨k, -, rfl⟩ := List.mem_map.1 h2
  rfl

theorem finishReplay_spec {E : Env K} (hE : E.OkJ) {X0 : ℕ → (ℕ → K) → Prop} {lo B : ℕ} :
    ∀ (l : List ((ℕ × ℕ) × List ℕ)) {σ σ' : Core K} {gh : Ghost K},
    Rp E X0 σ gh lo B l (qjobs σ.queue) → σ.rep = none → finishReplay E σ l = .ok σ' →
    ∃ gh', Replaying E X0 σ' gh'
  | [], σ, σ', gh, h, hr, hf => by
    cases hf
    refine ⟨gh, lo, B, ?_⟩
    unfold Core.toOps Core.jobs
    rw [hr]
    exact h
  | ((k, c), ops) :: l, σ, σ', gh, h, hr, hf => by
    simp only [finishReplay, bind_ok, needSome_ok] at hf
    obtain ⟨n, hn, st, hst, ⟨σ1, nid⟩, hm, hf⟩ := hf
    obtain ⟨⟨gh1, h1⟩, h2, h3⟩ := h.join hE (fun j hj => qjobs_zero hj) hn hm
    refine finishReplay_spec hE (lo := lo) (B := B) l (σ := { σ1 with queue := σ1.queue ++ [(c, [nid])] }) (gh := gh1) ?_ (h3.trans hr) hf
    have h1' := h1.misc (σ1.queue ++ [(c, [nid])]) σ1.rep
    have e : qjobs (σ1.queue ++ [(c, [nid])]) = qjobs σ.queue ++ [(nid, c, 0)] := by
      rw [h2]; simp [qjobs]
    simp only
    rw [e]
    exact h1'

/-- **One step of a replay** keeps everything that could reach an error. -/
theorem stepReplay_spec {E : Env K} (hE : E.OkJ) {X0 : ℕ → (ℕ → K) → Prop} {gh : Ghost K}
    {σ σ' : Core K} (hR : Replaying E X0 σ gh) (h : stepReplay E σ = .ok σ') :
    Flag E σ' ∨ ∃ gh', Replaying E X0 σ' gh' := by
  have hle := stepReplay_le h
  simp only [stepReplay, bind_ok, needSome_ok] at h
  obtain ⟨⟨σ1, r⟩, hi, pn, hpn, o, ho, s, hs, q, hq, σ2, ha, h⟩ := h
  obtain ⟨lo, B, hR⟩ := hR
  have h1 : Rp E X0 σ1 gh lo B r.toOps ((r.children.map fun k => (k, r.parent, r.idx)) ++ qjobs σ1.queue) := by
    unfold Core.toOps Core.jobs at hR
    unfold initReplay at hi
    cases hrep : σ.rep with
    | some r0 =>
      rw [hrep] at hR
      simp only [hrep] at hi
      cases hi
      exact hR
    | none =>
      rw [hrep] at hR
      simp only [hrep] at hi
      cases hqu : σ.queue with
      | nil => simp only [hqu] at hi; cases hi
      | cons e qq =>
        obtain ⟨p, ks⟩ := e
        simp only [hqu] at hi
        cases hi
        have := hR.misc qq none
        rw [hqu] at this
        simpa [qjobs] using this
  simp only at hpn hs hq ha h
  rcases Rp.loop hE (pn.ops.drop r.idx) (i0 := r.idx) h1 hpn rfl rfl hq with hf | ⟨gh2, g1, g2, g3, g4⟩
  · left
    have : FlagLe q.1 σ' := by
      refine (advanceKids_le _ ha).trans ?_
      split at h
      · exact finishReplay_le (σ := { σ2 with rep := none }) _ h
      · cases h; exact ⟨id, id⟩
    exact this.flag hf
  · right
    obtain ⟨a1, a2, a3, a4⟩ := Rp.advance hE r.children g1 (fun k hk => by
      rw [List.map_append]
      exact List.mem_append_left _ (by simpa using hk)) ha
    split at h
    · rename_i hfin
      have hleft : ∀ k ∈ r.children, ∀ nd, σ2.nodes[k]? = some nd → nd.left = true := by
        intro k hk nd hnd
        rcases hfin with hfin | hfin
        · obtain ⟨ndo, nd', k1, -, k3⟩ := (a1.jobs (k, r.parent, r.idx + q.2.2.2.1)
            (List.mem_append_left _ (List.mem_map.2 ⟨k, hk, rfl⟩))).kid
          simp only at k1 k3
          obtain rfl : nd = nd' := Option.some.inj (hnd.symm.trans k1.nkid)
          have : σ2.nodes[r.parent]? = some pn := by rw [a2]; exact g2
          obtain rfl : pn = ndo := Option.some.inj (this.symm.trans k1.nold)
          exact leftLast_left (k3.resolve_left (by omega))
        · unfold Core.allLeft at hfin
          have := List.all_eq_true.1 hfin k hk
          rw [hnd] at this
          exact this
      have hd := (Rp.drop r.children a1 hleft).misc σ2.queue none
      refine finishReplay_spec hE (lo := lo) (B := B) q.2.2.2.2 (gh := gh2) ?_ rfl h
      have e : qjobs σ1.queue = qjobs σ2.queue := by rw [a3, g3]
      rw [e] at hd
      exact hd
    · cases h
      refine ⟨gh2, lo, B, ?_⟩
      have := a1.misc σ2.queue (some { r with idx := r.idx + q.2.2.2.1, toOps := q.2.2.2.2 })
      have e : qjobs σ1.queue = qjobs σ2.queue := by rw [a3, g3]
      rw [e] at this
      exact this

/-! ### Beginning a refinement -/

/-- Part of the parents of a node being split may become a node. -/
theorem CanJoin.split {E : Env K} {X0 : ℕ → (ℕ → K) → Prop} {σ : Core K} {gh : Ghost K} {L A ids : List ℕ}
    (hB : Body E X0 σ gh (ids ++ L) A) {nid : ℕ} {nd : Node} (hn : σ.nodes[nid]? = some nd)
    (h2 : 2 ≤ nd.parents.length) (hsub : ∀ p ∈ ids, p ∈ nd.parents) (hnd : ids.Nodup) (hne : ids ≠ [])
    (hc : ∀ p ∈ ids, ∀ op, σ.ops[p]? = some op → op.child = some nid)
    (hup : ∀ a, Anchor σ (ids ++ L) A a → ¬ Up σ.nodes σ.ops a nid) :
    CanJoin E σ gh L A ids (gh.MN nid) := by
  refine ⟨hne, hnd, hB.ndErr _ _ hn, fun p hp => ?_, fun hd p hp q hq op oq h3 h4 =>
    hB.ndSame hd _ _ _ _ _ _ hn (hsub p hp) (hsub q hq) h3 h4, fun p hp hw => ?_,
    fun a μ nd' p ha hu hμ hp hpn => ?_⟩
  · obtain ⟨op, q1, q2, -⟩ := hB.ndPar _ _ _ hn (hsub p hp)
    exact ⟨op, q1, q2, .inr ⟨nid, nd, hc p hp op q1, hn, h2⟩, fun _ => hB.ndMany _ _ _ _ hn h2 (hsub p hp) q1⟩
  · obtain ⟨op, q1, q2⟩ := hB.wait p hw
    rw [hc p hp op q1] at q2; cases q2
  · obtain ⟨op, q1, -⟩ := hB.ndPar _ _ _ hn (hsub p hp)
    have := (ha.live hB) μ nd' p op hu hμ hpn q1
    rw [hc p hp op q1] at this; cases this
    exact hup a ha hu

theorem beginReplay_spec {E : Env K} (hE : E.OkJ) {X0 : ℕ → (ℕ → K) → Prop} {gh : Ghost K} {σ σ' : Core K}
    (hI : Idle E X0 σ gh) {nid : ℕ} (hg : getDeaggNode E σ = .ok (some nid))
    (h : beginReplay E σ nid = .ok σ') : ∃ gh', Replaying E X0 σ' gh' := by
  obtain ⟨hon, o0, ho0, op0, p0, hop0, hp0, hup0, nd, hnd, h2⟩ := getDeagg_some hg
  have hB := hI.body
  have hlive : NLive σ nid := (hB.live.1 o0 ho0 op0 p0 hop0 hp0).up hup0
  simp only [beginReplay, splitNode, bind_ok, needSome_ok, pure_ok] at h
  obtain ⟨rm, hrm, ⟨σ2', r0', r1'⟩, ⟨n, hn, -, -, st, hst, ⟨σ1, r0⟩, hm1, ⟨σ2, r1⟩, hm2, heq⟩, rfl⟩ := h
  obtain rfl : n = nd := Option.some.inj (hn.symm.trans hnd)
  simp only [Prod.mk.injEq] at heq
  obtain ⟨rfl, rfl, rfl⟩ := heq
  have hcut := hB.cut hon hnd hlive hrm
  set σc : Core K := { σ with waiting := σ.waiting.filter fun o => !rm.contains o } with hσc
  set mid := n.parents.length / 2 with hmid
  have hmidlt : mid < n.parents.length ∧ 0 < mid := by omega
  have hparN := hB.ndNodup _ _ hnd
  have htd : n.parents.take mid ++ n.parents.drop mid = n.parents := List.take_append_drop _ _
  have htN : (n.parents.take mid).Nodup := hparN.sublist (List.take_sublist _ _)
  have hdN : (n.parents.drop mid).Nodup := hparN.sublist (List.drop_sublist _ _)
  have hdisj : ∀ p ∈ n.parents.drop mid, p ∉ n.parents.take mid := by
    intro p hp hq
    rw [← htd] at hparN
    exact (List.nodup_append.1 hparN).2.2 p hq p hp rfl
  have hchild : ∀ p ∈ n.parents, ∀ op, σ.ops[p]? = some op → op.child = some nid := fun p hp op hop =>
    hlive nid n p op (.refl _) hnd hp hop
  have hpar : ∀ p ∈ n.parents, ∀ op a, σ.ops[p]? = some op → op.parent = some a → a < nid := by
    intro p hp op a h3 h4
    obtain ⟨op', q1, -, q3⟩ := hB.ndPar _ _ _ hnd hp
    rw [h3] at q1; cases q1
    exact q3 a h4
  -- nothing that stays is below the node being split
  have hno : ∀ a, Anchor σc n.parents [] a → ¬ Up σ.nodes σ.ops a nid := by
    rintro a (ha | ⟨o, op, ho, h3, h4⟩) hu
    · simp at ha
    · rcases ho with ho | ho
      · obtain ⟨w1, w2⟩ := List.mem_filter.1 ho
        have hla := hB.live.1 o w1 op a h3 h4
        obtain ⟨op', c1, c2⟩ := hB.wait o w1
        rw [show σc.ops = σ.ops from rfl] at h3
        rw [h3] at c1; cases c1
        obtain ⟨nda, d1, d2⟩ := hB.opPar o op a h3 h4
        have : o ∈ rm := (leafOps_mem _ hrm o).2 ⟨a, nda, op, hB.down hu hla, d1, d2, h3, c2⟩
        simp [this] at w2
      · have q1 := hpar o ho op a h3 h4
        have q2 := hB.up_le hu
        omega
  have hB1 : Body E X0 σc gh (n.parents.take mid ++ n.parents.drop mid) [] := by rw [htd]; exact hcut
  have hj1 := CanJoin.split (σ := σc) hB1 hnd h2 (fun p hp => List.mem_of_mem_take hp) htN
    (by intro hc; have := congrArg List.length hc; rw [List.length_take, List.length_nil] at this; omega)
    (fun p hp => hchild p (List.mem_of_mem_take hp)) (by rw [htd]; exact hno)
  obtain ⟨gh1, nd1, st1, a1, a2, a3, a4, a5, a6⟩ := makeNode_joined hE hB1 hj1 (hB.ndAgg _ _ · hnd) hm1
  have hn1 : σ1.nodes[nid]? = some n := a1.nodes _ _ hnd
  have hnl := lt_of_getElem? hnd
  have hr0 : ∀ μ, Up σ1.nodes σ1.ops r0 μ → μ = r0 ∨ μ < nid := by
    intro μ hu
    induction hu with
    | refl => exact .inl rfl
    | @step μ md p op μ' hu' h3 h4 h5 h6 ih =>
      right
      rcases ih with rfl | ih
      · rw [a4.node] at h3; cases h3
        rw [a6] at h4
        obtain ⟨op', q1, -⟩ := hB.ndPar _ _ _ hnd (List.mem_of_mem_take h4)
        obtain ⟨c, q2⟩ := a1.ext.ops p op' q1
        rw [h5] at q2; cases q2
        exact hpar p (List.mem_of_mem_take h4) op' μ' q1 h6
      · obtain ⟨op', q1, -, q3⟩ := a3.ndPar _ _ _ h3 h4
        rw [h5] at q1; cases q1
        have := q3 μ' h6
        omega
  have hB2 : Body E X0 σ1 gh1 (n.parents.drop mid ++ []) [r0] := by rw [List.append_nil]; exact a3
  have hkeep1 : ∀ p ∈ n.parents.drop mid, ∀ op, σ1.ops[p]? = some op → σ.ops[p]? = some op := by
    intro p hp op hop
    obtain ⟨op', q1, -⟩ := hB.ndPar _ _ _ hnd (List.mem_of_mem_drop hp)
    have := a1.keep p op' (hdisj p hp) q1
    rw [hop] at this; cases this
    exact q1
  have hj2 := CanJoin.split (σ := σ1) hB2 hn1 h2 (fun p hp => List.mem_of_mem_drop hp) hdN
    (by intro hc; have := congrArg List.length hc; rw [List.length_drop, List.length_nil] at this; omega)
    (fun p hp op hop => hchild p (List.mem_of_mem_drop hp) op (hkeep1 p hp op hop)) (by
      rintro a (ha | ⟨o, op, ho, h3, h4⟩) hu
      · simp only [List.mem_singleton] at ha
        subst ha
        rcases hr0 _ hu with q | q
        · have : a = σ.nodes.length := a2
          omega
        · omega
      · have hol : o < σ.ops.length := by have := lt_of_getElem? h3; rw [a1.opLen] at this; exact this
        obtain ⟨c, q2⟩ := a1.ext.ops o _ (List.getElem?_eq_getElem hol)
        rw [h3] at q2; cases q2
        have hao : ∃ nda, σ.nodes[a]? = some nda := by
          obtain ⟨nda, q, -⟩ := hB.opPar o _ a (List.getElem?_eq_getElem hol) h4
          exact ⟨nda, q⟩
        obtain ⟨nda, hnda⟩ := hao
        obtain ⟨u1, -⟩ := Up.ext a1.ext (fun ν nd' p h5 h6 => by
          obtain ⟨op', q1, -, q3⟩ := hB.ndPar ν nd' p h5 h6
          refine ⟨op', q1, fun μ hμ => ?_⟩
          have := q3 μ hμ
          have h7 : ν < σ.nodes.length := lt_of_getElem? h5
          show μ < σ.nodes.length
          omega) (lt_of_getElem? hnda) hu
        refine hno a (.inr ⟨o, _, ?_, List.getElem?_eq_getElem hol, h4⟩) u1
        rw [a1.waiting] at ho
        exact ho.imp id fun q => List.mem_of_mem_drop (by simpa using q))
  obtain ⟨gh2, nd2, st2, b1, b2, b3, b4, b5, b6⟩ := makeNode_joined hE hB2 hj2 (hB.ndAgg _ _ · hnd) hm2
  have hlen1 : σ1.nodes.length = σ.nodes.length + 1 := a1.len
  have hr0e : r0 = σ.nodes.length := a2
  have hk0 : Kid E gh1 σ1 (fun _ => True) nid 0 r0 n nd1 := Kid.fresh a4 a5 hn1 (by
      rintro x k ⟨p, hp, hx⟩
      rw [a6] at hp
      exact ⟨p, List.mem_of_mem_take hp, hx⟩) (by rw [a2, a1.MN, a1.ext.MN _ hnl])
  have hpos : 0 < n.ops.length := by
    obtain ⟨l', s', b', q, -⟩ := (hB.done _ _ (by simp) hnd).1
    simp [q]
  refine ⟨gh2, nid, σ.nodes.length, ?_⟩
  have hJ : ({ σ2 with queue := σ2.queue ++ [(nid, [r0, r1])] } : Core K).jobs = [(r0, nid, 0), (r1, nid, 0)] := by
    have e1 : σ2.queue = [] := by rw [b1.queue, a1.queue]; exact hI.queue
    have e2 : σ2.rep = none := by rw [b1.rep, a1.rep]; exact hI.rep
    simp [Core.jobs, qjobs, e1, e2]
  have hT : ({ σ2 with queue := σ2.queue ++ [(nid, [r0, r1])] } : Core K).toOps = [] := by
    have e2 : σ2.rep = none := by rw [b1.rep, a1.rep]; exact hI.rep
    simp [Core.toOps, e2]
  rw [hJ, hT]
  refine Rp.misc (σ := σ2) ⟨?_, hon, ?_, ?_, ?_, ?_, by simp, by simp, ?_, ?_⟩ _ _
  · exact b3.congr (fun _ => by simp) fun ν => by simp [or_comm]
  · rw [b1.len]; omega
  · intro ν md o op c h3 h4 h5 h6 h7 h8
    have h5' : σ.nodes[ν]? = some md := by
      have := b1.nodes ν _ (a1.nodes ν _ (List.getElem?_eq_getElem h4))
      rw [h5] at this; cases this
      exact List.getElem?_eq_getElem h4
    obtain ⟨op', q1, q2⟩ := hB.ndOps _ _ _ h5' h6
    have hon : o ∉ n.parents := fun hc => by
      have := hpar o hc op' ν q1 q2
      omega
    have e1 := a1.keep o op' (fun hc => hon (List.mem_of_mem_take hc)) q1
    have e2 := b1.keep o op' (fun hc => hon (List.mem_of_mem_drop hc)) e1
    rw [h7] at e2; cases e2
    obtain ⟨mc, g1, g2⟩ := hB.opChild _ _ _ q1 h8
    obtain ⟨op2, g3, -, g4⟩ := hB.ndPar _ _ _ g1 g2
    rw [q1] at g3; cases g3
    have := g4 ν q2
    have := lt_of_getElem? g1
    omega
  · intro j hj
    simp only [List.mem_cons, List.not_mem_nil, or_false] at hj
    rcases hj with rfl | rfl
    · exact ⟨le_refl _, hnl, by simp only; omega, n, nd1, hk0.joined hB2 b1 fun o ho => by simp [a5] at ho,
        fun _ => a5, .inl hpos⟩
    · refine ⟨le_refl _, hnl, by simp only; omega, n, nd2, Kid.fresh b4 b5 (b1.nodes _ _ hn1) ?_ ?_,
        fun _ => b5, .inl hpos⟩
      · rintro x k ⟨p, hp, hx⟩
        rw [b6] at hp
        exact ⟨p, List.mem_of_mem_drop hp, hx⟩
      · simp only
        rw [b2, b1.MN, b1.ext.MN _ (lt_of_getElem? hn1)]
  · simp only [List.map_cons, List.map_nil, List.nodup_cons, List.mem_singleton, List.not_mem_nil,
      not_false_eq_true, List.nodup_nil, and_true]
    omega
  · rw [b1.cur, a1.cur]; exact hI.cur
  · rw [b1.tt, a1.tt]; exact hI.tt

/-! ### All steps -/

/-- The invariant of a run, deaggregation included. -/
def GoodD (E : Env K) (X0 : ℕ → (ℕ → K) → Prop) (σ : Core K) : Prop :=
  Flag E σ ∨ ∃ gh, Running E X0 σ gh ∨ Idle E X0 σ gh ∨ (Replaying E X0 σ gh ∧ σ.cur = none ∧ σ.tookTt = false)

theorem Replaying.good {E : Env K} {X0 : ℕ → (ℕ → K) → Prop} {σ : Core K} {gh : Ghost K}
    (h : Replaying E X0 σ gh) : GoodD E X0 σ := by
  obtain ⟨lo, B, h'⟩ := id h
  exact .inr ⟨gh, .inr (.inr ⟨h, h'.cur, h'.tt⟩)⟩

theorem Replaying.idle {E : Env K} {X0 : ℕ → (ℕ → K) → Prop} {σ : Core K} {gh : Ghost K}
    (h : Replaying E X0 σ gh) (hd : σ.doingReplay = false) : Idle E X0 σ gh := by
  obtain ⟨lo, B, h⟩ := h
  simp only [Core.doingReplay, Bool.or_eq_false_iff, Bool.not_eq_false', List.isEmpty_iff,
    Option.isSome_eq_false_iff, Option.isNone_iff_eq_none] at hd
  obtain ⟨h1, h2⟩ := hd
  have hJ : σ.jobs = [] := by simp [Core.jobs, h1, h2, qjobs]
  have hT : σ.toOps = [] := by simp [Core.toOps, h1]
  rw [hJ, hT] at h
  exact ⟨h.body, h.cur, h2, h1, h.tt⟩

/-- **Each step of the main loop**, with or without deaggregation. -/
theorem doStep_spec {E : Env K} (hE : E.OkJ) (hsp : E.SamePath) {X0 : ℕ → (ℕ → K) → Prop}
    {σ σ' : Core K} (h : GoodD E X0 σ) (hf1 : E.NoTt ∨ σ.TtFresh E) (hf2 : E.NoTt ∨ σ'.TtFresh E)
    (hs : doStep E σ = .ok σ') : GoodD E X0 σ' := by
  have lift : (Flag E σ' ∨ ∃ gh', Running E X0 σ' gh' ∨ Idle E X0 σ' gh') → GoodD E X0 σ' := by
    rintro (q | ⟨gh', q | q⟩)
    · exact .inl q
    · exact .inr ⟨gh', .inl q⟩
    · exact .inr ⟨gh', .inr (.inl q)⟩
  have liftR : (Flag E σ' ∨ ∃ gh', Replaying E X0 σ' gh') → GoodD E X0 σ' := by
    rintro (q | ⟨gh', q⟩)
    · exact .inl q
    · exact q.good
  rcases h with h | ⟨gh, h⟩
  · exact .inl ((doStep_le hs).flag h)
  unfold doStep at hs
  split at hs
  · cases hs; exact .inr ⟨gh, h⟩
  split at hs
  · rename_i hcs
    rcases h with h | h
    · exact lift (stepPost_spec hE h hf1 hf2 hs)
    · have hc : σ.cur = none := by
        rcases h with h | h
        · exact h.cur
        · exact h.2.1
      unfold Core.curState at hcs
      rw [hc] at hcs; cases hcs
  rename_i hcs
  split at hs
  · rename_i hdr
    rcases h with h | h | ⟨h, -⟩
    · exact (hcs h.cur).elim
    · unfold Core.doingReplay at hdr
      rw [h.queue, h.rep] at hdr; cases hdr
    · exact liftR (stepReplay_spec hE h hs)
  · rename_i hdr
    have hI : Idle E X0 σ gh := by
      rcases h with h | h | ⟨h, -⟩
      · exact (hcs h.cur).elim
      · exact h
      · exact h.idle (by simpa using hdr)
    simp only [bind_ok] at hs
    obtain ⟨dg, hdg, hs⟩ := hs
    cases dg with
    | some nid =>
      simp only [bind_ok] at hs
      obtain ⟨σ1, h1, h2⟩ := hs
      obtain ⟨gh1, hR⟩ := beginReplay_spec hE hI hdg h1
      exact liftR (stepReplay_spec hE hR h2)
    | none =>
      simp only [bind_ok] at hs
      obtain ⟨σ1, h1, h2⟩ := hs
      refine lift (stepPop_spec hE hsp hI (fun o ho m hm => ?_) h1 h2)
      by_contra hc
      obtain ⟨op, ho1, ho2⟩ := hI.body.wait o ho
      obtain ⟨st, q1, q2⟩ := hI.body.fresh o op ho1 (.inl ho2)
      obtain ⟨w1, w2⟩ := hI.body.waitErr o ho op st m ho1 q1 hm (by simpa using hc)
      exact hc (getDeagg_none hdg w1 o ho op st m ho1 q1 (by rw [q2.mode]; exact hm) w2)

theorem runSteps_spec {E : Env K} (hE : E.OkJ) (hsp : E.SamePath) {X0 : ℕ → (ℕ → K) → Prop} :
    ∀ (n : ℕ) {σ σ' : Core K}, GoodD E X0 σ → (E.NoTt ∨ σ.TtFreshFor E n) → runSteps E n σ = .ok σ' →
      GoodD E X0 σ'
  | 0, σ, σ', h, hf, hr => by cases hr; exact h
  | n + 1, σ, σ', h, hf, hr => by
    simp only [runSteps, bind_ok] at hr
    obtain ⟨σ1, h1, h2⟩ := hr
    have hf' := Core.TtFreshFor.next hf h1
    exact runSteps_spec hE hsp n (doStep_spec hE hsp h (Core.TtFreshFor.now hf)
      (Core.TtFreshFor.now hf') h1) hf' h2

theorem GoodD.safe {E : Env K} {X0 : ℕ → (ℕ → K) → Prop} {σ : Core K} (h : GoodD E X0 σ)
    (hf : σ.isFinished E = true) (hn : ¬ Flag E σ) : E.hybJ.Safe X0 := by
  obtain ⟨a, b, c⟩ := isFinished_early hf hn
  rcases h with h | ⟨gh, h | h | ⟨h, -⟩⟩
  · exact (hn h).elim
  · have := h.cur
    rw [a] at this; cases this
  · exact h.safe b
  · exact (h.idle c).safe b

/-- Finished: nothing is left to be followed. -/
theorem GoodD.nothing_left {E : Env K} {X0 : ℕ → (ℕ → K) → Prop} {σ : Core K} (h : GoodD E X0 σ)
    (hf : σ.isFinished E = true) (hn : ¬ Flag E σ) {B : ℕ → (ℕ → K) → ℕ → Prop} (hT : Tracked E.hybJ B) :
    ¬ ∃ i x m, X0 i x ∧ E.ha.modes[i]? = some m ∧ Spec.InvEps 0 m x ∧ B i x 0 := by
  intro hX
  have key : ∀ gh, Idle E X0 σ gh → σ.waiting = [] → False := by
    intro gh h hw
    obtain ⟨o, y, k, -, -, h3⟩ := h.body.pend B hT hX
    rw [hw] at h3
    simp at h3
  obtain ⟨a, b, c⟩ := isFinished_early hf hn
  rcases h with h | ⟨gh, h | h | ⟨h, -⟩⟩
  · exact hn h
  · have := h.cur
    rw [a] at this; cases this
  · exact key gh h b
  · exact key gh (h.idle c) b

end Hylaa
