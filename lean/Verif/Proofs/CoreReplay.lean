import Verif.Proofs.CoreDeagg

/-! Replaying recorded operations on the parts of a split node. -/

set_option linter.unusedSectionVars false

namespace Hylaa
open Spec
variable {K : Type} [Field K] [LinearOrder K] [IsStrictOrderedRing K] [JumpAt K]

/-- Jumps recorded in a list of operations. -/
def QAt (ops : List (OpTr K)) (l : List NOp) (k ti : ℕ) : Prop :=
  ∃ o op, NOp.tr o ∈ l ∧ ops[o]? = some op ∧ op.trans = some ti ∧ op.step = k

/-- A part that is still inside the invariant, after `idx` operations of the old node. -/
structure Act (E : Env K) (gh : Ghost K) (σ : Core K) (ndo nd : Node) (idx k : ℕ) (st : SS K)
    (c : ℕ) : Prop where
  node : NodeSt E gh σ k nd st c
  cOk : c = 0 ∨ ∃ s i b, NOp.inv s i b ∈ ndo.ops.take idx ∧ c ≤ s + 1
  inv : ∀ s i b, NOp.inv s i b ∈ nd.ops → ∃ i' b', NOp.inv s i' b' ∈ ndo.ops.take idx
  done : Done E gh σ.ops k nd (QAt σ.ops (ndo.ops.take idx))

/-- Node `k` is a part of node `old`; `idx` operations have been replayed. -/
structure Kid (E : Env K) (gh : Ghost K) (σ : Core K) (W : ℕ → Prop) (old idx k : ℕ)
    (ndo nd : Node) : Prop where
  nold : σ.nodes[old]? = some ndo
  nkid : σ.nodes[k]? = some nd
  sub : ∀ x n, gh.GP nd x n → gh.GP ndo x n
  mn : gh.MN k = gh.MN old
  pend : ∀ o, NOp.tr o ∈ nd.ops → W o
  st : (LeftLast nd.ops ∧ Done E gh σ.ops k nd fun _ _ => True) ∨ ∃ st c, Act E gh σ ndo nd idx k st c

/-- Only node `k` and its state set change; operations may be added. -/
structure Frm (E : Env K) (gh : Ghost K) (σ : Core K) (gh' : Ghost K) (σ' : Core K) (k : ℕ) :
    Prop where
  ext : Ext σ gh σ' gh'
  keep : ∀ (o : ℕ) op, σ.ops[o]? = some op → σ'.ops[o]? = some op
  node : ∀ μ, μ ≠ k → σ'.nodes[μ]? = σ.nodes[μ]?
  st : ∀ μ md st c, μ ≠ k → NodeSt E gh σ μ md st c → NodeSt E gh' σ' μ md st c
  len : σ'.nodes.length = σ.nodes.length
  cur : σ'.cur = σ.cur
  tt : σ'.tookTt = σ.tookTt
  queue : σ'.queue = σ.queue
  rep : σ'.rep = σ.rep

theorem Frm.refl (E : Env K) (gh : Ghost K) (σ : Core K) (k : ℕ) : Frm E gh σ gh σ k :=
  ⟨Ext.refl _ _, fun _ _ h => h, fun _ _ => rfl, fun _ _ _ _ _ h => h, rfl, rfl, rfl, rfl, rfl⟩

theorem Frm.trans {E : Env K} {k : ℕ} {a b c : Core K} {ga gb gc : Ghost K} (h : Frm E ga a gb b k)
    (h' : Frm E gb b gc c k) : Frm E ga a gc c k :=
  ⟨h.ext.trans h'.ext, fun o op h1 => h'.keep o op (h.keep o op h1),
    fun μ hμ => (h'.node μ hμ).trans (h.node μ hμ),
    fun μ md st c hμ h1 => h'.st μ md st c hμ (h.st μ md st c hμ h1), h'.len.trans h.len,
    h'.cur.trans h.cur, h'.tt.trans h.tt, h'.queue.trans h.queue, h'.rep.trans h.rep⟩

theorem Frm.setSt {E : Env K} {X0 : ℕ → (ℕ → K) → Prop} {σ : Core K} {gh : Ghost K} {L A : List ℕ}
    (hB : Body E X0 σ gh L A) {k : ℕ} {nd : Node} (hk : σ.nodes[k]? = some nd) (st' : SS K)
    (te : ℕ → Option (TE K)) : Frm E gh σ gh { σ.setState nd.state st' with te := te } k :=
  ⟨Ext.of_same gh rfl rfl, fun _ _ h => h, fun _ _ => rfl,
    fun _ _ _ _ hμ h => NodeSt.other hB hk hμ h st' te, rfl, rfl, rfl, rfl, rfl⟩

theorem Frm.push (E : Env K) (gh : Ghost K) (σ : Core K) (k : ℕ) (x : NOp) :
    Frm E gh σ gh (σ.pushOp k x) k := by
  have hn : ∀ μ, μ ≠ k → (σ.pushOp k x).nodes[μ]? = σ.nodes[μ]? := by
    intro μ hμ
    rw [pushOp_nodes]
    cases σ.nodes[μ]? <;> simp [hμ.symm]
  exact ⟨Ext.push σ gh k x, fun _ _ h => h, hn,
    fun μ md st c hμ h => ⟨(hn μ hμ).trans h.node, h.state, h.mode, h.ok, h.cle, h.time, h.lo, h.noLeft⟩,
    List.length_modify .., rfl, rfl, rfl, rfl⟩

theorem Done.same {E : Env K} {σ σ' : Core K} {gh gh' : Ghost K} (h : Ext σ gh σ' gh') {ν : ℕ}
    {nd : Node} (hν : ν < σ.nodes.length) (hp : ∀ p ∈ nd.parents, p < σ.ops.length)
    {Q : ℕ → ℕ → Prop} (hd : Done E gh σ.ops ν nd Q) : Done E gh' σ'.ops ν nd Q := by
  have := Done.ext h hν hp (l := []) hd
  simpa using this

theorem Done.weaken {E : Env K} {gh : Ghost K} {ops : List (OpTr K)} {ν : ℕ} {nd : Node}
    {Q Q' : ℕ → ℕ → Prop} (hd : Done E gh ops ν nd Q) (h : ∀ k ti, Q' k ti → Q k ti) :
    Done E gh ops ν nd Q' := fun x n k ti j y h1 h2 h3 h4 => hd x n k ti j y h1 h2 h3 (h k ti h4)

theorem Body.parlt {E : Env K} {X0 : ℕ → (ℕ → K) → Prop} {gh : Ghost K} {σ : Core K}
    {L A : List ℕ} (hB : Body E X0 σ gh L A) {ν : ℕ} {nd : Node} (h : σ.nodes[ν]? = some nd) :
    ∀ p ∈ nd.parents, p < σ.ops.length := fun p hp => by
  obtain ⟨op, h1, -⟩ := hB.ndPar ν nd p h hp
  exact lt_of_getElem? h1

/-- Other parts are not affected. -/
theorem Kid.other {E : Env K} {X0 : ℕ → (ℕ → K) → Prop} {gh gh' : Ghost K} {σ σ' : Core K}
    {L A : List ℕ} (hB : Body E X0 σ gh L A) {W W' : ℕ → Prop} {old idx k k' : ℕ} {ndo nd : Node}
    (h : Kid E gh σ W old idx k' ndo nd) (hf : Frm E gh σ gh' σ' k) (hk : k' ≠ k) (ho : old ≠ k)
    (hW : ∀ o, W o → W' o) : Kid E gh' σ' W' old idx k' ndo nd := by
  have h1 := hB.parlt h.nkid
  have h2 := hB.parlt h.nold
  refine ⟨(hf.node _ ho).trans h.nold, (hf.node _ hk).trans h.nkid, fun x n hx => ?_, ?_,
    fun o ho => hW o (h.pend o ho), ?_⟩
  · exact (hf.ext.GP (nd := ndo) (l := ndo.ops) h2 x n).2 (h.sub x n ((hf.ext.GP (nd := nd) (l := nd.ops) h1 x n).1 hx))
  · rw [hf.ext.MN _ (lt_of_getElem? h.nkid), hf.ext.MN _ (lt_of_getElem? h.nold)]; exact h.mn
  · rcases h.st with ⟨a, b⟩ | ⟨st, c, a⟩
    · exact .inl ⟨a, b.same hf.ext (lt_of_getElem? h.nkid) h1⟩
    · refine .inr ⟨st, c, hf.st _ _ _ _ hk a.node, a.cOk, a.inv, ?_⟩
      refine (a.done.same hf.ext (lt_of_getElem? h.nkid) h1).weaken ?_
      rintro kk ti ⟨o, op, q1, q2, q3⟩
      obtain ⟨op', r1, -⟩ := hB.ndOps _ _ o h.nold (List.mem_of_mem_take q1)
      have := hf.keep _ _ r1
      rw [q2] at this; cases this
      exact ⟨o, op, q1, r1, q3⟩

theorem leftLast_left {n : Node} (h : LeftLast n.ops) : n.left = true := by
  obtain ⟨l, s, b, e, -⟩ := h
  unfold Node.left
  rw [e]; simp

theorem noLeft_left {n : Node} (h : NoLeft n.ops) : n.left = false := by
  unfold Node.left
  split
  · rename_i s b hl
    exact absurd (List.mem_of_getLast? hl) (h s b)
  · rfl

theorem jump_at {E : Env K} {i s k ti j : ℕ} {x y : ℕ → K} (h : E.hybJ.Jump 0 i x k ti j y)
    (hs : s < k ∨ (s = 0 ∧ k = 0)) : ∃ m z, E.ha.modes[i]? = some m ∧ Flow 0 m (E.dyn i) s x z ∧ InvEps 0 m z := by
  obtain ⟨m, t, z, l, j1, j2, j3, j4, -⟩ := h
  rcases hs with hs | ⟨rfl, rfl⟩
  · obtain ⟨z', f1, f2⟩ := flow_inv j3 hs
    exact ⟨m, z', j1, f1, f2⟩
  · exact ⟨m, z, j1, j3, (j4 rfl).2⟩

/-- Leaving at a recorded invariant operation. -/
theorem Act.leave {E : Env K} {gh : Ghost K} {ops : List (OpTr K)} {old idx k s i : ℕ} {b : Bool} {ndo nd : Node}
    (hold : Done E gh ops old ndo fun _ _ => True) (hord : OrderOk ops ndo.ops)
    (hsub : ∀ x n, gh.GP nd x n → gh.GP ndo x n) (hmn : gh.MN k = gh.MN old)
    (hd : Done E gh ops k nd (QAt ops (ndo.ops.take idx))) (ho : ndo.ops[idx]? = some (.inv s i b))
    (hno : ∀ x n z m, gh.GP nd x n → E.ha.modes[gh.MN k]? = some m →
      Flow 0 m (E.dyn (gh.MN k)) s x z → ¬ InvEps 0 m z) :
    Done E gh ops k nd fun _ _ => True := by
  intro x n kk ti j y h1 h2 h3 _
  obtain ⟨o, op, a1, a2, a3, a4, a5⟩ := hold x n kk ti j y (hsub x n h1) (hmn ▸ h2) h3 trivial
  by_cases ht : NOp.tr o ∈ ndo.ops.take idx
  · obtain ⟨o', op', b1, b2, b3, b4, b5⟩ := hd x n op.step ti j y h1 (hmn ▸ a5) (by omega) ⟨o, op, ht, a2, a3, rfl⟩
    exact ⟨o', op', b1, b2, b3, by omega, b5⟩
  · exfalso
    obtain ⟨q, hq, he⟩ := List.mem_iff_getElem.1 a1
    obtain ⟨hidx, he2⟩ := List.getElem?_eq_some_iff.1 ho
    have hlt : idx < q := by
      rcases Nat.lt_trichotomy idx q with h | h | h
      · exact h
      · subst h; rw [he2] at he; cases he
      · exact absurd (List.mem_iff_getElem.2 ⟨q, by simp; omega, by simp [he]⟩) ht
    have := List.pairwise_iff_getElem.1 hord idx q hidx hq hlt s i b o op he2 he a2
    obtain ⟨m, z, c1, c2, c3⟩ := jump_at a5 this
    rw [← hmn] at c1 c2
    exact hno x n z m h1 c1 c2 c3

/-- Leaving at the end. -/
theorem Act.leaveLast {E : Env K} {gh : Ghost K} {ops : List (OpTr K)} {old idx k s : ℕ} {b : Bool} {ndo nd : Node}
    (hold : Done E gh ops old ndo fun _ _ => True) (hl : LeftLast ndo.ops)
    (hsub : ∀ x n, gh.GP nd x n → gh.GP ndo x n) (hmn : gh.MN k = gh.MN old)
    (hd : Done E gh ops k nd (QAt ops (ndo.ops.take idx))) (ho : ndo.ops[idx]? = some (.left s b)) :
    Done E gh ops k nd fun _ _ => True := by
  intro x n kk ti j y h1 h2 h3 _
  obtain ⟨o, op, a1, a2, a3, a4, a5⟩ := hold x n kk ti j y (hsub x n h1) (hmn ▸ h2) h3 trivial
  obtain ⟨l', s', b', e, hno⟩ := hl
  have hidx : idx = l'.length := by
    by_contra hc
    have hlt := lt_of_getElem? ho
    rw [e] at ho hlt
    simp only [List.length_append, List.length_singleton] at hlt
    rw [List.getElem?_append_left (by omega)] at ho
    exact hno _ _ (List.mem_of_getElem? ho)
  have ht : NOp.tr o ∈ ndo.ops.take idx := by
    rw [e] at a1 ⊢
    rw [hidx]
    simpa using a1
  obtain ⟨o', op', b1, b2, b3, b4, b5⟩ := hd x n op.step ti j y h1 (hmn ▸ a5) (by omega) ⟨o, op, ht, a2, a3, rfl⟩
  exact ⟨o', op', b1, b2, b3, by omega, b5⟩

theorem mem_take_succ {l : List NOp} {i : ℕ} {x : NOp} (h : x ∈ l.take i) : x ∈ l.take (i + 1) :=
  (List.take_subset_take_left l (Nat.le_succ i)) h

theorem qat_succ {ops : List (OpTr K)} {l : List NOp} {idx : ℕ} {x : NOp} (hx : l[idx]? = some x)
    {k ti : ℕ} (h : QAt ops (l.take (idx + 1)) k ti) : QAt ops (l.take idx) k ti ∨
      ∃ o op, x = .tr o ∧ ops[o]? = some op ∧ op.trans = some ti ∧ op.step = k := by
  obtain ⟨o, op, h1, h2⟩ := h
  obtain ⟨hi, he⟩ := List.getElem?_eq_some_iff.1 hx
  rw [List.take_add_one, hx] at h1
  simp only [Option.toList_some, List.mem_append, List.mem_singleton] at h1
  rcases h1 with h1 | h1
  · exact .inl ⟨o, op, h1, h2⟩
  · exact .inr ⟨o, op, h1.symm, h2⟩

/-- A part leaves: `OpLeftInvariant` is appended. -/
theorem Kid.left {E : Env K} {X0 : ℕ → (ℕ → K) → Prop} {gh : Ghost K} {σ : Core K}
    {L A : List ℕ} (hB : Body E X0 σ gh L A) {W : ℕ → Prop} {old idx k s : ℕ} {b : Bool} {ndo nd : Node}
    (hk : k ∈ A) (nold : σ.nodes[old]? = some ndo) (nkid : σ.nodes[k]? = some nd) (hok : old ≠ k)
    (sub : ∀ x n, gh.GP nd x n → gh.GP ndo x n) (mn : gh.MN k = gh.MN old)
    (pend : ∀ o, NOp.tr o ∈ nd.ops → W o) (hno : NoLeft nd.ops)
    (hd : Done E gh σ.ops k nd fun _ _ => True) :
    Body E X0 (σ.pushOp k (.left s b)) gh L A ∧
    Kid E gh (σ.pushOp k (.left s b)) W old idx k ndo { nd with ops := nd.ops ++ [.left s b] } := by
  refine ⟨hB.push hk rfl, ?_, ?_, sub, mn, ?_, .inl ⟨⟨nd.ops, s, b, rfl, hno⟩, ?_⟩⟩
  · exact ((Frm.push E gh σ k (.left s b)).node old hok).trans nold
  · rw [pushOp_nodes, nkid]; simp
  · intro o ho
    simp only [List.mem_append, List.mem_singleton] at ho
    rcases ho with ho | ho
    · exact pend o ho
    · cases ho
  · exact Done.ext (Ext.push σ gh k (.left s b)) (lt_of_getElem? nkid) (hB.parlt nkid) hd

/-- **Replaying an invariant operation** on one part. -/
theorem replayInv_spec {E : Env K} (hE : E.OkJ) {X0 : ℕ → (ℕ → K) → Prop} {gh : Ghost K}
    {σ σ' : Core K} {L A : List ℕ} (hB : Body E X0 σ gh L A) {W : ℕ → Prop} {old idx k s i : ℕ}
    {b : Bool} {ndo nd : Node} {st : SS K} {c : ℕ} (hk : k ∈ A) (hoA : old ∉ A)
    (h : Kid E gh σ W old idx k ndo nd) (ha : Act E gh σ ndo nd idx k st c)
    (ho : ndo.ops[idx]? = some (.inv s i b)) (hr : replayInv E σ k s i = .ok σ') :
    ∃ nd', Body E X0 σ' gh L A ∧ Frm E gh σ gh σ' k ∧ Kid E gh σ' W old (idx + 1) k ndo nd' ∧
      σ'.waiting = σ.waiting ∧ σ'.ops = σ.ops := by
  have hok : old ≠ k := fun hc => hoA (hc ▸ hk)
  simp only [replayInv, bind_ok, needSome_ok] at hr
  obtain ⟨n, hn, σ1, h1, st2, hst2, m, hm, lc, hlc, ⟨lp, r⟩, hc, hr⟩ := hr
  rw [h.nkid] at hn; cases hn
  obtain ⟨te, st1, e1, hB1, hN1, e4, e5, e6, e7⟩ := stepState_spec hE hB ha.node h1
  have hF1 : Frm E gh σ gh σ1 k := by rw [e1]; exact Frm.setSt hB h.nkid st1 te
  have ho1 : σ1.ops = σ.ops := by rw [e1]; rfl
  have hw1 : σ1.waiting = σ.waiting := by rw [e1]; rfl
  obtain rfl : st1 = st2 := Option.some.inj (hN1.state.symm.trans hst2)
  simp only [Option.getD_some] at e5
  obtain ⟨m', k1, k2, k3⟩ := hN1.ok
  rw [hm] at k1; cases k1
  have hdf := hE.dynFor _ _ hm k2
  have hlc' : lc ∈ m.inv := List.mem_of_getElem? hlc
  obtain ⟨c1, c2, c3, c4, c5, c6⟩ := checkIntersection_spec hE.honest hN1.obj
    (by have := hdf.wf.nodup lc hlc'; simpa [LinCon.negate, negRow, Function.comp_def] using this)
    (by
      intro p hp
      simp only [LinCon.negate, negRow, List.mem_map] at hp
      obtain ⟨q, hq, rfl⟩ := hp
      simp only [LinCon.negate]
      rw [hdf.wf.ncols lc hlc']; exact hdf.wf.lt lc hlc' q hq) hc
  obtain ⟨hB2, hN2⟩ := NodeSt.optimised hB1 hN1 c1 c2
  have hF2 : Frm E gh σ gh (σ1.setState nd.state { st1 with lp := lp }) k :=
    hF1.trans (Frm.setSt hB1 hN1.node { st1 with lp := lp } σ1.te)
  obtain ⟨hl, hdo⟩ := hB.done old ndo hoA h.nold
  have hord := hB.ndOrder _ _ h.nold
  have hnold2 : σ1.nodes[old]? = some ndo := (hF1.node old hok).trans h.nold
  -- an empty state set
  have hempty : ∀ (st' : SS K) (c' : ℕ), st'.mode = st1.mode → st'.stepIn = s → c' ≤ s + 1 →
      st'.Ok m (E.dyn st'.mode) (fun x => ∃ n, gh.GP nd x n) E.T.inter False c' →
      (∀ x, ¬ st'.lp.Mem x) → ∀ x n z m, gh.GP nd x n → E.ha.modes[gh.MN k]? = some m →
      Flow 0 m (E.dyn (gh.MN k)) s x z → ¬ InvEps 0 m z := by
    intro st' c' q1 q2 q3 q4 q5 x n z m2 r1 r2 r3 r4
    rw [← hN1.mode] at r2 r3
    rw [hm] at r2; cases r2
    refine q5 z (SS.Ok.mem_of_flow (q1 ▸ hdf) (hE.plain _ _ hm k2) q4 ⟨n, r1⟩ (by rw [q1, q2]; exact r3) ?_)
    rw [q2]
    by_cases hcs : c' ≤ s
    · exact .inl hcs
    · exact .inr ⟨by omega, r4⟩
  have hdone : Done E gh σ1.ops k nd (QAt σ1.ops (ndo.ops.take idx)) := by rw [ho1]; exact ha.done
  have hpend := h.pend
  simp only at hr
  split at hr
  · -- infeasible
    cases hr
    have hD := Act.leave hdo hord h.sub h.mn ha.done ho
      (hempty st1 c rfl e5 (by have := hN1.cle; omega) k3 (c4 rfl))
    obtain ⟨a1, a2⟩ := Kid.left (idx := idx + 1) (s := s) (b := false) hB2 (W := W) hk hnold2 hN2.node hok h.sub h.mn h.pend hN2.noLeft
      (by show Done E gh σ1.ops _ _ _; rw [ho1]; exact hD)
    exact ⟨_, a1, hF2.trans (Frm.push ..), a2, hw1, ho1⟩
  · -- not intersecting
    cases hr
    refine ⟨nd, hB2, hF2, ⟨hnold2, hN2.node, h.sub, h.mn, h.pend, .inr ⟨_, c, hN2, ?_, ?_, ?_⟩⟩, hw1, ho1⟩
    · rcases ha.cOk with hc0 | ⟨s', i', b', q1, q2⟩
      · exact .inl hc0
      · exact .inr ⟨s', i', b', mem_take_succ q1, q2⟩
    · intro s' i' b' hb
      obtain ⟨i2, b2, q⟩ := ha.inv s' i' b' hb
      exact ⟨i2, b2, mem_take_succ q⟩
    · refine hdone.weaken ?_
      intro kk ti hq
      rcases qat_succ ho hq with hq | ⟨o, op, hq, -⟩
      · exact hq
      · cases hq
  · simp only [bind_ok, pure_ok] at hr
    obtain ⟨⟨st3, bb⟩, hadd, ⟨lp4, f⟩, hfe, hr⟩ := hr
    obtain ⟨m2, k1', k2', k3'⟩ := hN2.ok
    have hm' : E.ha.modes[st1.mode]? = some m2 := k1'
    rw [hm] at hm'; cases hm'
    obtain ⟨a1, a2⟩ := k3'.addInv hE.honest hdf (hE.plain _ _ hm k2) hN2.cle hlc' hadd
    have hmode3 : st3.mode = st1.mode := by rw [a1]
    have hsi3 : st3.stepIn = s := by rw [a1]; exact e5
    have hobj : st3.lp.ObjInv := by obtain ⟨⟨ρ, q, -⟩, -⟩ := a2; exact q.obj
    obtain ⟨g1, g2, g3⟩ := isFeasible_spec hE.honest hfe hobj
    set st4 : SS K := { st3 with lp := lp4 } with hst4
    have hok4 : st4.Ok m (E.dyn st4.mode) (fun x => ∃ n, gh.GP nd x n) E.T.inter False (s + 1) := by
      have := a2.withLp g1 g2
      have e : ({ st1 with lp := lp } : SS K).stepIn = s := e5
      rw [e] at this
      show SS.Ok m (E.dyn st3.mode) _ _ _ _ st4
      rw [hmode3]; exact this
    have hlo4 : E.chullOn → st4.lp.NoLo := by
      intro hch
      have h0 := hN2.lo hch
      have := addInv_noLo h0 hadd
      show lp4.NoLo
      rw [g1]; exact this
    have hmode4 : st4.mode = st1.mode := hmode3
    have hB3 : Body E X0 (σ1.setState nd.state st4) gh L A :=
      hB1.setState (te := σ1.te) (st' := st4) hN1.node hN1.state hmode4 hB1.te
    have hF3 : Frm E gh σ gh (σ1.setState nd.state st4) k :=
      hF1.trans (Frm.setSt hB1 hN1.node st4 σ1.te)
    have hN3 : NodeSt E gh (σ1.setState nd.state st4) k nd st4 (s + 1) := by
      refine ⟨hN1.node, List.getElem?_set_self (lt_of_getElem? hN1.state), by rw [hmode4]; exact hN1.mode,
        ⟨m, by rw [hmode4]; exact hm, k2, hok4⟩, ?_, ?_, hlo4, hN1.noLeft⟩
      · show s + 1 ≤ st3.stepIn + 1; omega
      · intro x n hx
        have := hN1.time x n hx
        show st3.steps.1 ≤ n + st3.stepIn
        have e : st3.steps = st1.steps := by rw [a1]
        have e' : st3.stepIn = st1.stepIn := by rw [a1]
        rw [e, e']; exact this
    -- push the invariant operation
    have hB4 := hB3.push hk (x := .inv s i bb) rfl
    have hF4 := hF3.trans (Frm.push E gh (σ1.setState nd.state st4) k (.inv s i bb))
    have hnk : ((σ1.setState nd.state st4).pushOp k (.inv s i bb)).nodes[k]? =
        some { nd with ops := nd.ops ++ [.inv s i bb] } := by
      rw [pushOp_nodes, hN3.node]; simp
    have hN4 : NodeSt E gh ((σ1.setState nd.state st4).pushOp k (.inv s i bb)) k
        { nd with ops := nd.ops ++ [.inv s i bb] } st4 (s + 1) := by
      refine ⟨hnk, hN3.state, hN3.mode, hN3.ok, hN3.cle, hN3.time, hN3.lo, ?_⟩
      intro s' b' hb
      simp only [List.mem_append, List.mem_singleton] at hb
      rcases hb with hb | hb
      · exact hN3.noLeft _ _ hb
      · cases hb
    have hnold4 : ((σ1.setState nd.state st4).pushOp k (.inv s i bb)).nodes[old]? = some ndo :=
      (hF4.node old hok).trans h.nold
    have hD4 : ∀ Q, Done E gh σ1.ops k nd Q → Done E gh σ1.ops k { nd with ops := nd.ops ++ [.inv s i bb] } Q :=
      fun Q hQ => Done.ext (Ext.push (σ1.setState nd.state st4) gh k (.inv s i bb))
        (lt_of_getElem? hN3.node) (hB3.parlt hN3.node) hQ
    have hpend4 : ∀ o, NOp.tr o ∈ nd.ops ++ [.inv s i bb] → W o := by
      intro o hoo
      simp only [List.mem_append, List.mem_singleton] at hoo
      rcases hoo with hoo | hoo
      · exact h.pend o hoo
      · cases hoo
    have hidx : NOp.inv s i b ∈ ndo.ops.take (idx + 1) := by
      rw [List.take_add_one, ho]; simp
    split at hr
    · subst hr
      refine ⟨_, hB4, hF4, ⟨hnold4, hnk, h.sub, h.mn, hpend4, .inr ⟨st4, s + 1, hN4, ?_, ?_, ?_⟩⟩, hw1, ho1⟩
      · exact .inr ⟨s, i, b, hidx, le_refl _⟩
      · intro s' i' b' hb
        simp only [List.mem_append, List.mem_singleton] at hb
        rcases hb with hb | hb
        · obtain ⟨i2, b2, q⟩ := ha.inv s' i' b' hb
          exact ⟨i2, b2, mem_take_succ q⟩
        · cases hb
          exact ⟨i, b, hidx⟩
      · refine (hD4 _ hdone).weaken ?_
        intro kk ti hq
        rcases qat_succ ho hq with hq | ⟨o, op, hq, -⟩
        · exact hq
        · cases hq
    · rename_i hff
      subst hr
      have hno : ∀ x, ¬ st4.lp.Mem x := by
        intro x hx
        obtain ⟨v, hv, -⟩ := hx
        exact hff (g3.2 ⟨v, by have : lp4.toSys = _ := g1; rw [← this]; exact hv⟩)
      have hD := Act.leave hdo hord h.sub h.mn ha.done ho
        (hempty st4 (s + 1) hmode4 hsi3 (le_refl _) hok4 hno)
      obtain ⟨a1, a2⟩ := Kid.left (idx := idx + 1) (s := s) (b := false) hB4 (W := W) hk hnold4 hnk hok h.sub h.mn hpend4 hN4.noLeft
        (hD4 _ (by rw [ho1]; exact hD))
      exact ⟨_, a1, hF4.trans (Frm.push ..), a2, hw1, ho1⟩

/-- What replaying a transition operation adds: nothing, a waiting operation, or an operation held
for the refined successor of `c`. -/
def TrRes (gh' : Ghost K) (σ σ' : Core K) (L L' : List ℕ) (k oid : ℕ)
    (t t' : List ((ℕ × ℕ) × List ℕ)) : Prop :=
  (t' = t ∧ L' = L ∧ (σ'.waiting = σ.waiting ∨ σ'.waiting = σ.waiting ++ [σ.ops.length])) ∨
  ∃ c opo ndc op, σ.ops[oid]? = some opo ∧ opo.child = some c ∧ σ.nodes[c]? = some ndc ∧
    t' = addToOps t (k, c) σ.ops.length ∧ L' = σ.ops.length :: L ∧ σ'.waiting = σ.waiting ∧
    σ'.ops[σ.ops.length]? = some op ∧ op.child = none ∧ op.parent = some k ∧
    gh'.M σ.ops.length = gh'.MN c ∧ ∀ x n, gh'.G σ.ops.length x n → gh'.GP ndc x n

/-- **Replaying a transition operation** on one part. -/
theorem replayTr_spec {E : Env K} (hE : E.OkJ) {X0 : ℕ → (ℕ → K) → Prop} {gh : Ghost K}
    {σ : Core K} {L A : List ℕ} (hB : Body E X0 σ gh L A) {old idx k oid : ℕ}
    {ndo nd : Node} {st : SS K} {c : ℕ} (hk : k ∈ A) (hoA : old ∉ A)
    (h : Kid E gh σ (fun o => o ∈ σ.waiting ∨ o ∈ L) old idx k ndo nd) (ha : Act E gh σ ndo nd idx k st c)
    (ho : ndo.ops[idx]? = some (.tr oid)) {t : List ((ℕ × ℕ) × List ℕ)}
    {r : Core K × List ((ℕ × ℕ) × List ℕ)} (hr : replayTr E σ k oid t = .ok r) :
    Flag E r.1 ∨ ∃ gh' nd' L', Body E X0 r.1 gh' L' A ∧ Frm E gh σ gh' r.1 k ∧
      Kid E gh' r.1 (fun o => o ∈ r.1.waiting ∨ o ∈ L') old (idx + 1) k ndo nd' ∧
      TrRes gh' σ r.1 L L' k oid t r.2 := by
  have hok : old ≠ k := fun hc => hoA (hc ▸ hk)
  simp only [replayTr, bind_ok, needSome_ok] at hr
  obtain ⟨n, hn, o, hop, σ1, h1, st2, hst2, ti, hti, tr, htr, g, hg, ⟨lp, res⟩, hgi, hr⟩ := hr
  rw [h.nkid] at hn; cases hn
  obtain ⟨te, st1, e1, hB1, hN1, e4, e5, e6, e7⟩ := stepState_spec hE hB ha.node h1
  have hF1 : Frm E gh σ gh σ1 k := by rw [e1]; exact Frm.setSt hB h.nkid st1 te
  have ho1 : σ1.ops = σ.ops := by rw [e1]; rfl
  have hw1 : σ1.waiting = σ.waiting := by rw [e1]; rfl
  obtain rfl : st1 = st2 := Option.some.inj (hN1.state.symm.trans hst2)
  simp only [Option.getD_some] at e5
  obtain ⟨hl, hdo⟩ := hB.done old ndo hoA h.nold
  have hord := hB.ndOrder _ _ h.nold
  have hmemo : NOp.tr oid ∈ ndo.ops := List.mem_of_getElem? ho
  obtain ⟨opx, hx1, hx2⟩ := hB.ndOps _ _ _ h.nold hmemo
  rw [hop] at hx1; cases hx1
  obtain ⟨ti', tr', y1, y2, y3, l, y4, y5⟩ := hB.opTrans _ _ _ hop hx2
  rw [hti] at y1; cases y1
  rw [htr] at y2; cases y2
  -- the part is ready
  have hbefore : ∀ s i b, NOp.inv s i b ∈ ndo.ops.take idx → s < o.step ∨ (s = 0 ∧ o.step = 0) := by
    intro s i b hb
    obtain ⟨q, hq, he⟩ := List.mem_iff_getElem.1 hb
    simp only [List.length_take] at hq
    simp only [List.getElem_take] at he
    obtain ⟨hidx, he2⟩ := List.getElem?_eq_some_iff.1 ho
    exact List.pairwise_iff_getElem.1 hord q idx (by omega) hidx (by omega) s i b oid o he he2 hop
  have hR1 : Ready E gh σ1 k nd st1 c := by
    refine ⟨hN1, ?_, ?_⟩
    · rcases ha.cOk with hc | ⟨s, i, b, q1, q2⟩
      · left; omega
      · rcases hbefore s i b q1 with hb | ⟨hb1, hb2⟩
        · left; omega
        · right; omega
    · intro s i b hb
      obtain ⟨i', b', q⟩ := ha.inv s i b hb
      rw [e5]; exact hbefore s i' b' q
  obtain ⟨m, hm1, hm2⟩ := hB1.ndErr k nd hN1.node
  have hlk : E.ha.out[gh.MN k]? = some l := by rw [h.mn]; exact y4
  have hgo := ((hE.trs _ m l ti tr hm1 hm2 hlk y5 htr).guard g hg).1
  obtain ⟨g1, g2, -, -⟩ := guardIntersection_spec hE.honest hN1.obj (Ready.wf hN1).1 hgo hgi
  obtain ⟨hB2, hN2⟩ := NodeSt.optimised hB1 hN1 g1 g2
  have hF2 : Frm E gh σ gh (σ1.setState nd.state { st1 with lp := lp }) k :=
    hF1.trans (Frm.setSt hB1 hN1.node { st1 with lp := lp } σ1.te)
  have hnold2 : σ1.nodes[old]? = some ndo := (hF1.node old hok).trans h.nold
  have hdone : Done E gh σ1.ops k nd (QAt σ1.ops (ndo.ops.take idx)) := by rw [ho1]; exact ha.done
  have hcOk : c = 0 ∨ ∃ s i b, NOp.inv s i b ∈ ndo.ops.take (idx + 1) ∧ c ≤ s + 1 := by
    rcases ha.cOk with hc0 | ⟨s', i', b', q1, q2⟩
    · exact .inl hc0
    · exact .inr ⟨s', i', b', mem_take_succ q1, q2⟩
  simp only at hr
  cases res with
  | none =>
    cases hr
    refine .inr ⟨gh, nd, L, hB2, hF2, ⟨hnold2, hN2.node, h.sub, h.mn, ?_, .inr ⟨_, c, hN2, hcOk, ?_, ?_⟩⟩,
      .inl ⟨rfl, rfl, .inl hw1⟩⟩
    · intro o' ho'
      show o' ∈ σ1.waiting ∨ _
      rw [hw1]; exact h.pend o' ho'
    · intro s' i' b' hb
      obtain ⟨i2, b2, q⟩ := ha.inv s' i' b' hb
      exact ⟨i2, b2, mem_take_succ q⟩
    · intro x n kk tj j y a1 a2 a3 a4
      rcases qat_succ ho a4 with hq | ⟨o', op', hq, q1, q2, q3⟩
      · exact hdone x n kk tj j y a1 a2 a3 hq
      · cases hq
        have q1' : σ1.ops[oid]? = some op' := q1
        rw [ho1, hop] at q1'; cases q1'
        rw [hti] at q2; cases q2
        rw [← q3, ← e5] at a2
        exact absurd a2 (hR1.noJump hE htr hg hgi a1)
  | some tlp =>
    simp only [bind_ok, needSome_ok, pure_ok] at hr
    obtain ⟨dst, hdst, ce, -, ⟨σ3, q⟩, hmk, hr⟩ := hr
    by_cases hflag : Flag E (if dst.isError = true then
        (σ1.setState nd.state { st1 with lp := lp }).errorReached st1.concrete ce
        else σ1.setState nd.state { st1 with lp := lp })
    · left
      have hle := makeOp_le hmk
      have : Flag E σ3 := FlagLe.flag ⟨fun x => by rw [hle.1]; exact x, fun x => by rw [hle.2]; exact x⟩ hflag
      subst hr
      simp only
      split
      · exact this
      · split
        · exact FlagLe.flag (a := σ3) ⟨id, id⟩ this
        · exact FlagLe.flag (a := σ3) ⟨id, id⟩ this
    · right
      have herr : dst.isError = true → E.deaggOn ∧ st1.concrete = false := by
        intro he
        rw [if_pos he] at hflag
        constructor
        · by_contra hc; exact hflag (flag_of_error (.inr (.inr hc)))
        · cases hcc : st1.concrete with
          | false => rfl
          | true => rw [hcc] at hflag; exact absurd (flag_of_error (.inr (.inl rfl))) hflag
      obtain ⟨τ, hτ, hτs, hτo, hτn, hτw, hτc, hτq, hτr, hτt, hBτ⟩ : ∃ τ : Core K,
          τ = (if dst.isError = true then
            (σ1.setState nd.state { st1 with lp := lp }).errorReached st1.concrete ce
            else σ1.setState nd.state { st1 with lp := lp }) ∧
          τ.states = (σ1.setState nd.state { st1 with lp := lp }).states ∧ τ.ops = σ1.ops ∧
          τ.nodes = σ1.nodes ∧ τ.waiting = σ1.waiting ∧ τ.cur = σ1.cur ∧ τ.queue = σ1.queue ∧
          τ.rep = σ1.rep ∧ τ.tookTt = σ1.tookTt ∧ Body E X0 τ gh L A := by
        refine ⟨_, rfl, ?_⟩
        split
        · rename_i he
          rw [if_pos he] at hflag
          unfold Core.errorReached at hflag ⊢
          split
          · rename_i hcc
            rw [if_pos hcc] at hflag
            exact ⟨rfl, rfl, rfl, rfl, rfl, rfl, rfl, rfl, Body.flags hB2 hflag⟩
          · rename_i hcc
            rw [if_neg hcc] at hflag
            exact ⟨rfl, rfl, rfl, rfl, rfl, rfl, rfl, rfl, Body.flags hB2 hflag⟩
        · exact ⟨rfl, rfl, rfl, rfl, rfl, rfl, rfl, rfl, hB2⟩
      rw [← hτ] at hmk
      have hRτ : Ready E gh τ k nd { st1 with lp := lp } c :=
        ⟨⟨by rw [hτn]; exact hN2.node, by rw [hτs]; exact hN2.state, hN2.mode, hN2.ok, hN2.cle,
          hN2.time, hN2.lo, hN2.noLeft⟩, hR1.cOk, hR1.ord⟩
      have hFτ : Frm E gh σ gh τ k := by
        refine hF2.trans ⟨Ext.of_same gh hτo hτn, fun o' op' h' => by rw [hτo]; exact h',
          fun μ _ => by rw [hτn]; rfl, fun μ md s' c' hμ hh => ?_, by rw [hτn]; rfl, hτc, hτt, hτq, hτr⟩
        exact ⟨by rw [hτn]; exact hh.node, by rw [hτs]; exact hh.state, hh.mode, hh.ok, hh.cle, hh.time, hh.lo, hh.noLeft⟩
      obtain ⟨gh', post, op, f1, f2, f3, f4, f5, f6, f7, f8, f9, f10, f11, f12, f13, f14, f15⟩ :=
        Ready.newOp hE hBτ hk hRτ hlk y5 htr hg hgi ⟨st1, rfl, hN1.obj, g1⟩ hmk
      subst f1
      have hlen : τ.ops.length = σ.ops.length := by rw [hτo, ho1]
      rw [hlen] at hr f11 f12 f13 f14 f15
      have hnew : σ3.ops[σ.ops.length]? = some op := by
        rw [f2, ← hlen]; exact List.getElem?_concat_length
      have hw3 : σ3.waiting = σ.waiting := by rw [f10]; exact hτw.trans hw1
      have hn3 : σ3.nodes = τ.nodes := by rw [f10]
      -- the frame
      have hFn : Frm E gh σ gh' (σ3.pushOp k (.tr σ.ops.length)) k := by
        have hno : ∀ μ, μ ≠ k → (σ3.pushOp k (.tr σ.ops.length)).nodes[μ]? = τ.nodes[μ]? := by
          intro μ hμ
          rw [← hn3]
          exact (Frm.push E gh σ3 k (.tr σ.ops.length)).node μ hμ
        refine hFτ.trans ⟨f12, ?_, hno, ?_, ?_, ?_, ?_, ?_, ?_⟩
        · intro o' op' h'
          show σ3.ops[o']? = _
          rw [f2]; exact append_keep h'
        · intro μ md s' c' hμ hh
          have hG : ∀ x n, gh'.GP md x n → gh.GP md x n := fun x n hx =>
            (f12.GP (nd := md) (l := md.ops) (hBτ.parlt hh.node) x n).1 hx
          have := hh.frame (gh' := gh') (σ' := σ3.pushOp k (.tr σ.ops.length)) (lp := s'.lp)
            ((hno μ hμ).trans hh.node) (by show σ3.states[md.state]? = _; rw [f8]; exact append_keep hh.state)
            rfl id hG (f12.MN μ (lt_of_getElem? hh.node))
          exact this
        · show (σ3.nodes.modify _ _).length = _
          rw [List.length_modify, hn3]
        · show σ3.cur = _; rw [f10]
        · show σ3.tookTt = _; rw [f10]
        · show σ3.queue = _; rw [f10]
        · show σ3.rep = _; rw [f10]
      have hpl := NodeSt.parlt hBτ hRτ.toNodeSt
      have hkl := lt_of_getElem? hRτ.node
      have hsub' : ∀ x n, gh'.GP { nd with ops := nd.ops ++ [.tr σ.ops.length] } x n → gh'.GP ndo x n := by
        intro x n hx
        exact (f12.GP (nd := ndo) (l := ndo.ops) (hBτ.parlt ((hFτ.node _ hok).trans h.nold)) x n).2
          (h.sub x n ((f12.GP hpl x n).1 hx))
      have hmn' : gh'.MN k = gh'.MN old := by
        rw [f12.MN k hkl, f12.MN old (lt_of_getElem? ((hFτ.node _ hok).trans h.nold))]; exact h.mn
      have hDτ : Done E gh τ.ops k nd (QAt τ.ops (ndo.ops.take idx)) := by rw [hτo]; exact hdone
      have hDn : Done E gh' (σ3.pushOp k (.tr σ.ops.length)).ops k { nd with ops := nd.ops ++ [.tr σ.ops.length] }
          (QAt (σ3.pushOp k (.tr σ.ops.length)).ops (ndo.ops.take (idx + 1))) := by
        have hD1 := Done.ext f12 hkl hpl (l := [.tr σ.ops.length]) hDτ
        intro x n kk tj j y a1 a2 a3 a4
        rcases qat_succ ho a4 with ⟨o', op', q1, q2, q3⟩ | ⟨o', op', hq, q1, q2, q3⟩
        · refine hD1 x n kk tj j y a1 a2 a3 ?_
          obtain ⟨op2, r1, -⟩ := hB.ndOps _ _ o' h.nold (List.mem_of_mem_take q1)
          have r2 := hFn.keep _ _ r1
          rw [q2] at r2; cases r2
          exact ⟨o', op', q1, hFτ.keep _ _ r1, q3⟩
        · cases hq
          have r2 := hFn.keep _ _ hop
          rw [q1] at r2; cases r2
          rw [hti] at q2; cases q2
          refine ⟨σ.ops.length, op, by simp, hnew, f5, ?_, ?_⟩
          · rw [f6]; show st1.stepIn ≤ kk; omega
          · rw [f6]; show E.hybJ.Jump 0 _ x st1.stepIn _ _ _
            rw [e5, q3]; exact a2
      have hinv' : ∀ s' i' b', NOp.inv s' i' b' ∈ nd.ops ++ [.tr σ.ops.length] →
          ∃ i2 b2, NOp.inv s' i2 b2 ∈ ndo.ops.take (idx + 1) := by
        intro s' i' b' hb
        simp only [List.mem_append, List.mem_singleton] at hb
        rcases hb with hb | hb
        · obtain ⟨i2, b2, q⟩ := ha.inv s' i' b' hb
          exact ⟨i2, b2, mem_take_succ q⟩
        · cases hb
      have hnold3 : (σ3.pushOp k (.tr σ.ops.length)).nodes[old]? = some ndo := (hFn.node _ hok).trans h.nold
      have hnw : σ.ops.length ∉ σ3.waiting := by
        rw [hw3]
        intro hc
        obtain ⟨op', k', -⟩ := hB.wait _ hc
        have := lt_of_getElem? k'
        omega
      simp only at hr
      split at hr
      · -- a new waiting operation
        subst hr
        have hBw := f11.toWait hnew f3 hnw (by
          intro s m' hs hm' he'
          rw [f13, hdst] at hm'; cases hm'
          have hs' : σ3.states[op.post]? = some s := hs
          rw [f8, f7, List.getElem?_concat_length] at hs'
          cases hs'
          obtain ⟨q1, q2⟩ := herr he'
          exact ⟨q1, by rw [f9]; exact q2⟩)
        refine ⟨gh', _, L, hBw, ?_, ⟨hnold3, f15.node, hsub', hmn', ?_, .inr ⟨{ st1 with lp := lp }, c, ?_, hcOk, hinv', hDn⟩⟩, .inl ⟨rfl, rfl, .inr ?_⟩⟩
        · exact ⟨⟨hFn.ext.ops, hFn.ext.nodes, hFn.ext.G, hFn.ext.M, hFn.ext.MN⟩, hFn.keep, hFn.node,
            fun μ md s' c' hμ hh => by
              have := hFn.st μ md s' c' hμ hh
              exact ⟨this.node, this.state, this.mode, this.ok, this.cle, this.time, this.lo, this.noLeft⟩,
            hFn.len, hFn.cur, hFn.tt, hFn.queue, hFn.rep⟩
        · intro o' ho'
          simp only [List.mem_append, List.mem_singleton, NOp.tr.injEq] at ho'
          show o' ∈ σ3.waiting ++ [σ.ops.length] ∨ _
          rcases ho' with ho' | rfl
          · rw [hw3]
            rcases h.pend o' ho' with hh | hh
            · left; simp [hh]
            · exact .inr hh
          · left; simp
        · have := f15.toNodeSt
          exact ⟨this.node, this.state, this.mode, this.ok, this.cle, this.time, this.lo, this.noLeft⟩
        · show σ3.waiting ++ _ = _; rw [hw3]
      · -- a new operation for the refined successor
        rename_i cc hcc
        subst hr
        obtain ⟨ndc, z1, z2⟩ := hB.opChild _ _ _ hop hcc
        refine ⟨gh', _, σ.ops.length :: L, f11, hFn, ⟨hnold3, f15.node, hsub', hmn', ?_,
          .inr ⟨_, c, f15.toNodeSt, hcOk, hinv', hDn⟩⟩, .inr ⟨cc, o, ndc, op, hop, hcc, z1, rfl, rfl, hw3, hnew, f3, f4, ?_, ?_⟩⟩
        · intro o' ho'
          simp only [List.mem_append, List.mem_singleton, NOp.tr.injEq] at ho'
          show o' ∈ σ3.waiting ∨ _
          rcases ho' with ho' | rfl
          · rw [hw3]
            rcases h.pend o' ho' with hh | hh
            · exact .inl hh
            · right; simp [hh]
          · right; simp
        · obtain ⟨-, -, q, -⟩ := hB.ndPar _ _ _ z1 z2
          rw [f13, hFn.ext.MN _ (lt_of_getElem? z1), ← q, y3]
        · intro y n' hy
          obtain ⟨x, n, q1, q2, q3, q4⟩ := (f14 y n').1 hy
          refine (hFn.ext.GP (nd := ndc) (l := ndc.ops) (hB.parlt z1) y n').2 ⟨oid, z2, ?_⟩
          rw [hB.exact _ _ _ _ _ hop hx2 h.nold hti]
          have e : ({ st1 with lp := lp } : SS K).stepIn = o.step := e5
          rw [e] at q2 q3
          rw [h.mn] at q2
          exact ⟨x, n, h.sub x n q1, by rw [y3]; exact q2, q3, q4⟩

end Hylaa
